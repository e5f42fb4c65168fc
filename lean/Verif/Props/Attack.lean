import Verif.Spec.Shape
import Verif.Props.Robust
/-
C101: what a server that does not follow the protocol can do to a client that decrypts its answers.
-/
namespace OnionPIR
open Rg Poly Spec

variable {N t : Nat} {l : List Nat} {variance : Nat} {P : BfvParameters}

/-- The scaled key `⌊Q/t⌋ s` encodes the key. -/
theorem Attack.encodes (hN : 0 < N) {Q : Nat} (ht : 0 < t) {S : ℤ} {s u : Rg N} (hs : Bdd S (s * u)) :
    Encodes t Q (s * u) (((Q / t : ℕ) : ℤ) * (s * u)) (t * S) := by
  refine ⟨-(((Q % t : ℕ) : ℤ) : Rg N) * (s * u), 0, fun k hk => ?_, ?_⟩
  · have e : -(((Q % t : ℕ) : ℤ) : Rg N) * (s * u) = ((-((Q % t : ℕ) : ℤ) : ℤ) : Rg N) * (s * u) := by push_cast; ring
    rw [e, cf_int_mul hN, abs_mul, abs_neg, abs_of_nonneg (by positivity)]
    have h1 : ((Q % t : ℕ) : ℤ) ≤ t := by exact_mod_cast (Nat.mod_lt _ ht).le
    exact mul_le_mul h1 (hs k hk) (abs_nonneg _) (by positivity)
  · have h1 : (t : ℤ) * ((Q / t : ℕ) : ℤ) = Q - ((Q % t : ℕ) : ℤ) := by
      have h' : (t : ℤ) * ((Q / t : ℕ) : ℤ) + ((Q % t : ℕ) : ℤ) = Q := by exact_mod_cast Nat.div_add_mod Q t
      linarith
    have h2 : ((t : ℤ) : Rg N) * (((Q / t : ℕ) : ℤ) : Rg N) = ((Q : ℤ) : Rg N) - (((Q % t : ℕ) : ℤ) : Rg N) := by
      rw [← Int.cast_mul, h1]; push_cast; ring
    linear_combination (s * u) * h2

/-- C101: there is a ciphertext, depending on the parameters only, that decrypts to the secret key: `decrypt` is not safe on the answers of a server that does not
follow the protocol. -/
theorem c101_key_recovery (h : IsParams N t l variance P) (h2t : 2 * t ≤ l.getD 0 0) :
    ∃ ct, ShapedCt P 0 2 ct ∧ ∀ (pr : Profile) (sk : SecretKey) (S : Nat), IsKey P sk → Bdd (S : ℤ) (keyRing N sk) → 4 * (t * S) ≤ levelQ l 0 →
      ∃ pt, sk.decrypt pr ct = .ok pt ∧ pt.values = residues t (keyRing N sk) := by
  have hpos : 0 < l.length ∧ 0 < t ∧ 0 < N := by
    obtain ⟨K, ext, rfl, hw, rfl, rfl, -⟩ := BfvP.params h
    exact ⟨List.length_pos_iff.mpr hw.ne, hw.t_prime.pos, by positivity⟩
  obtain ⟨p0, hp0⟩ := c33_exists_poly h hpos.1 (0 : Rg N)
  obtain ⟨p1, hp1⟩ := c33_exists_poly h hpos.1 ((((levelQ l 0 / t : ℕ) : ℤ)) : Rg N)
  have hct : IsCt P 0 [0, ((((levelQ l 0 / t : ℕ) : ℤ)) : Rg N)] ⟨P, [p0, p1], 0⟩ := ⟨rfl, rfl, .cons hp0 (.cons hp1 .nil)⟩
  refine ⟨_, Shape.of_isCt h hct, fun pr sk S hk hS hQ => ?_⟩
  obtain ⟨pt, h1, -, -, h2⟩ := c30_decrypt h hk pr (by simp) hct h2t (m := keyRing N sk) (V := t * S) (by
    have := Attack.encodes hpos.2.2 (Q := levelQ l 0) hpos.2.1 (s := keyRing N sk) (u := 1) (S := S) (by rw [mul_one]; exact hS)
    rw [mul_one] at this
    convert this using 1
    simp only [phase]
    ring) (by exact_mod_cast hQ)
  exact ⟨pt, h1, h2⟩

/-- C101: the key is a function of what was decrypted, if its coefficients are small for the plaintext modulus. -/
theorem c101_key_determined {sk : SecretKey} {S : Nat} (hS : Bdd (S : ℤ) (keyRing N sk)) (ht : 2 * S < t) {k : Nat} (hk : k < N) :
    cf (keyRing N sk) k = let v := (residues t (keyRing N sk)).getD k 0; if v ≤ S then (v : ℤ) else v - t := by
  have hv : (residues t (keyRing N sk)).getD k 0 = (cf (keyRing N sk) k % (t : ℤ)).toNat := by
    unfold residues
    rw [List.getD_eq_getElem?_getD, List.getElem?_map, List.getElem?_range hk, Option.map_some, Option.getD_some]
  have hb := abs_le.mp (hS k hk)
  dsimp only
  rw [hv]
  generalize cf (keyRing N sk) k = a at hb ⊢
  have h1 : ((a % (t : ℤ)).toNat : ℤ) = a % t := Int.toNat_of_nonneg (Int.emod_nonneg _ (by omega))
  by_cases ha : 0 ≤ a
  · have h2 : a % (t : ℤ) = a := Int.emod_eq_of_lt ha (by omega)
    rw [if_pos (by omega), h1, h2]
  · have h2 : a % (t : ℤ) = a + t := by
      rw [← Int.add_emod_right]
      exact Int.emod_eq_of_lt (by omega) (by omega)
    rw [if_neg (by omega), h1, h2]
    omega

/-- C101: answers are malleable: the server can add any vector to the decrypted row, and any multiple of the key, without knowing either. -/
theorem c101_malleable (h : IsParams N t l variance P) (h2t : 2 * t ≤ l.getD 0 0) (u0 u1 : Rg N) :
    ∃ forge, ShapedCt P 0 2 forge ∧ ∀ (pr : Profile) (sk : SecretKey) (ct : BfvCipherText) (f0 f1 m : Rg N) (V S0 S1 : ℤ), IsKey P sk → IsCt P 0 [f0, f1] ct →
      Encodes t (levelQ l 0) m (phase (keyRing N sk) [f0, f1]) V → Bdd S0 u0 → Bdd S1 (keyRing N sk * u1) → 4 * (V + (t * S0 + t * S1)) ≤ levelQ l 0 →
      ∃ sum pt, ct.add pr forge = .ok sum ∧ sk.decrypt pr sum = .ok pt ∧ pt.values = residues t (m + u0 + keyRing N sk * u1) := by
  have hpos : 0 < l.length ∧ 0 < t ∧ 0 < N := by
    obtain ⟨K, ext, rfl, hw, rfl, rfl, -⟩ := BfvP.params h
    exact ⟨List.length_pos_iff.mpr hw.ne, hw.t_prime.pos, by positivity⟩
  obtain ⟨p0, hp0⟩ := c33_exists_poly h hpos.1 ((((levelQ l 0 / t : ℕ) : ℤ) : Rg N) * u0)
  obtain ⟨p1, hp1⟩ := c33_exists_poly h hpos.1 ((((levelQ l 0 / t : ℕ) : ℤ) : Rg N) * u1)
  have hct : IsCt P 0 [_, _] ⟨P, [p0, p1], 0⟩ := ⟨rfl, rfl, .cons hp0 (.cons hp1 .nil)⟩
  refine ⟨_, Shape.of_isCt h hct, fun pr sk ct f0 f1 m V S0 S1 hk hc he hb0 hb1 hQ => ?_⟩
  obtain ⟨z, z1, z2, z3⟩ := c32_add h pr hc hct (keyRing N sk)
  obtain ⟨v0, w0, x1, x2⟩ := Attack.encodes hpos.2.2 (Q := levelQ l 0) hpos.2.1 (s := 1) (u := u0) (S := S0) (by rw [one_mul]; exact hb0)
  obtain ⟨v1, w1, y1, y2⟩ := Attack.encodes hpos.2.2 (Q := levelQ l 0) hpos.2.1 (S := S1) hb1
  obtain ⟨v, w, e1, e2⟩ := he
  obtain ⟨pt, h1, -, -, h2⟩ := c30_decrypt h hk pr (by simp) z2 h2t (m := m + u0 + keyRing N sk * u1) (V := V + (t * S0 + t * S1))
    ⟨v + (v0 + v1), w + w0 + w1, Bdd.add hpos.2.2 e1 (Bdd.add hpos.2.2 x1 y1), by
      simp only [phase] at e2 ⊢
      linear_combination e2 + x2 + y2⟩ hQ
  exact ⟨z, pt, z1, h1, h2⟩

/-- Decrypting the ciphertext `(0, ⌊Q/17⌋)` with a key with the coefficients `3, -2, 0, 8` returns `3, 15, 0, 8` modulo 17, from which the key follows. -/
example : ∃ P ct pt, IsParams 8 17 Ex.mods 10 P ∧ ShapedCt P 0 2 ct ∧ (SecretKey.mk P [3, -2, 0, 8]).decrypt .debug ct = .ok pt ∧
    pt.values = [3, 15, 0, 8, 0, 0, 0, 0] ∧ cf (keyRing 8 (SecretKey.mk P [3, -2, 0, 8])) 1 = -2 := by
  obtain ⟨P, h⟩ := Ex.exists_params
  have hd : P.degree = 8 := (c51_levels h).1
  have hk : IsKey P (SecretKey.mk P [3, -2, 0, 8]) := ⟨rfl, by rw [hd]; exact (show 4 ≤ 8 by decide), by simp⟩
  have hcf : ∀ k, k < 8 → cf (keyRing 8 (SecretKey.mk P [3, -2, 0, 8])) k = ([3, -2, 0, 8] : List ℤ).getD k 0 := fun k hk => by
    unfold keyRing; rw [cf_ofCoeffs (by norm_num) _ hk]
  have hb : Bdd ((8 : Nat) : ℤ) (keyRing 8 (SecretKey.mk P [3, -2, 0, 8])) := fun k hk => by
    rw [hcf k hk]; revert k; decide
  obtain ⟨ct, h1, h2⟩ := c101_key_recovery h (by decide)
  obtain ⟨pt, h3, h4⟩ := h2 .debug _ 8 hk hb (by rw [Ex.levelQ_mods0]; norm_num)
  have h5 : residues 17 (keyRing 8 (SecretKey.mk P [3, -2, 0, 8])) = [3, 15, 0, 8, 0, 0, 0, 0] := by
    unfold residues
    rw [List.map_congr_left (g := fun k => ((([3, -2, 0, 8] : List ℤ).getD k 0) % ((17 : Nat) : ℤ)).toNat) fun k hk => by rw [hcf k (List.mem_range.mp hk)]]
    decide
  have h6 := c101_key_determined hb (t := 17) (by norm_num) (k := 1) (by norm_num)
  rw [h5] at h6
  exact ⟨P, ct, pt, h, h1, h3, h4.trans h5, h6⟩

/-- An actual encryption of `[3, 1, 16, 0, 2, 0, 0, 9]`, to which the server adds `1` in every position. -/
example : ∃ P sk, ∃ ct forge sum : BfvCipherText, ∃ pt, IsParams 8 17 Ex.mods 10 P ∧ IsKey P sk ∧ ShapedCt P 0 2 forge ∧ ct.add .release forge = .ok sum ∧
    sk.decrypt .release sum = .ok pt ∧ pt.values = [4, 2, 0, 1, 3, 1, 1, 10] := by
  obtain ⟨P, sk, ct, f0, f1, h, hk, hb, hct, he⟩ := Ex.setup
  obtain ⟨forge, h1, h2⟩ := c101_malleable h (by decide) (ofCoeffs 8 fun _ => 1) 0
  obtain ⟨sum, pt, h3, h4, h5⟩ := h2 .release sk ct f0 f1 _ _ 1 0 hk hct he (fun k hk => by rw [cf_ofCoeffs (by norm_num) _ hk]; norm_num)
    (by rw [mul_zero]; exact Bdd.zero (by norm_num)) (by rw [Ex.levelQ_mods0]; norm_num)
  refine ⟨P, sk, ct, forge, sum, pt, h, hk, h1, h3, h4, h5.trans ?_⟩
  unfold residues
  rw [List.map_congr_left (g := fun k => ((([3, 1, 16, 0, 2, 0, 0, 9] : List Nat).getD k 0 + 1 : ℤ) % ((17 : Nat) : ℤ)).toNat) fun k hk => by
    have hk := List.mem_range.mp hk
    rw [mul_zero, add_zero, cf_add (by norm_num), cf_ofCoeffs (by norm_num) _ hk]
    unfold msgRing
    rw [cf_ofCoeffs (by norm_num) _ hk]]
  decide

end OnionPIR
