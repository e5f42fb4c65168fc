import Verif.Props.Sizes
import Verif.Spec.Forge

/-! C107: answers carry no proof of where they come from. `SecretKey::decrypt` (bfv.rs) accepts every ciphertext of the right shape, and
ciphertexts can be made without a key. -/

namespace OnionPIR

open Rg Poly Spec

variable {N t variance : Nat} {l : List Nat} {P : BfvParameters}

/-- C107: for every plaintext there is a ciphertext, made without a key, whose phase under any `s` is the scaled plaintext. -/
theorem c107_forge (h : IsParams N t l variance P) (pr : Profile) {pt : Plaintext} (hp : pt.params = P) (hlev : pt.level < l.length)
    (hlen : pt.values.length ≤ N) (hv : ∀ x ∈ pt.values, x < 2 ^ 64) :
    ∃ ct, ∃ f : Rg N, forge pr pt = .ok ct ∧ IsCt P pt.level [f, 0] ct ∧ ShapedCt P pt.level 2 ct ∧
      ∀ s : Rg N, Encodes t (levelQ l pt.level) (msgRing N pt.values) (phase s [f, 0]) (2 * t) := by
  have h' := h
  obtain ⟨K, ext, rfl, hw, rfl, rfl, rfl⟩ := BfvP.params h
  obtain ⟨L, hL⟩ := hw.levels _ hlev
  have hN : 0 < 2 ^ K := by positivity
  subst hp
  obtain ⟨M, hM, hMk⟩ := Plaintext.toPoly_enc hw hL pr hlen hv
  have hct : IsCt pt.params pt.level [M, 0] ⟨pt.params, [enc L.qCtx .ntt M, enc L.qCtx .ntt 0], pt.level⟩ :=
    (BfvP.isCt_iff hL _ _).mpr ⟨rfl, rfl, rfl⟩
  refine ⟨_, M, ?_, hct, Shape.of_isCt h' hct, fun s => ?_⟩
  · unfold forge
    rw [hM, res_ok_bind, ← zero_enc hL.wf.ctx]
    rfl
  · rw [BfvP.phase_two, ← BfvP.levelQ_eq hL]
    choose! r r0 r1 r2 using hMk
    set t := pt.params.plaintextModulus
    refine ⟨-ofCoeffs (2 ^ K) r, 0, ?_, ?_⟩
    · intro k hk
      rw [cf_neg hN, cf_ofCoeffs hN _ hk, abs_neg, abs_of_nonneg (r0 k hk)]
      exact (r1 k hk).le
    · have hMr : ((t : ℤ) : Rg (2 ^ K)) * M = ((L.qCtx.Q : ℤ) : Rg (2 ^ K)) * msgRing (2 ^ K) pt.values - ofCoeffs (2 ^ K) r := by
        apply ext_cf hN
        intro k hk
        rw [cf_sub hN, cf_int_mul hN, cf_int_mul hN, cf_ofCoeffs hN _ hk, BfvP.cf_msgRing _ hk]
        exact r2 k hk
      rw [zero_mul, add_zero, hMr]; ring

/-- C107: one forged ciphertext decrypts to the chosen values under every key. It has the shape of an honest answer, so neither decryption nor
the client can tell it apart by its form. -/
theorem c107_decrypts (h : IsParams N t l variance P) (pr : Profile) {pt : Plaintext} (hp : pt.params = P) (hlev : pt.level < l.length)
    (hlen : pt.values.length ≤ N) (hv : ∀ x ∈ pt.values, x < 2 ^ 64) (h2t : 2 * t ≤ l.getD 0 0) (hQ : 8 * t ≤ levelQ l pt.level) :
    ∃ ct, forge pr pt = .ok ct ∧ ShapedCt P pt.level 2 ct ∧ ctWords ct = 2 * ((l.length - pt.level) * N) ∧
      ∀ (sk : SecretKey) (pd : Profile), IsKey P sk → ∃ out, sk.decrypt pd ct = .ok out ∧ out.level = pt.level ∧
        out.values = (List.range N).map fun k => pt.values.getD k 0 % t := by
  obtain ⟨ct, f, e1, e2, e3, e4⟩ := c107_forge h pr hp hlev hlen hv
  refine ⟨ct, e1, e3, c104_ciphertext h e3, fun sk pd hk => ?_⟩
  obtain ⟨out, d1, -, d2, d3⟩ := c30_decrypt h hk pd (by simp) e2 h2t (e4 _) (by
    have : ((8 * t : Nat) : ℤ) ≤ (levelQ l pt.level : ℤ) := by exact_mod_cast hQ
    push_cast at this
    linarith)
  refine ⟨out, d1, d2, ?_⟩
  obtain ⟨K, -, rfl, -⟩ := BfvP.params h
  rw [d3, residues_msgRing]

theorem residues_add_msgRing {K : Nat} (ht : 0 < t) (m : Rg (2 ^ K)) (v : List Nat) :
    residues t (m + msgRing (2 ^ K) v) = (List.range (2 ^ K)).map fun k => ((residues t m).getD k 0 + v.getD k 0) % t := by
  have hN : 0 < 2 ^ K := by positivity
  unfold residues
  apply List.map_congr_left
  intro k hk
  have hk := List.mem_range.mp hk
  have e : (List.map (fun k => (cf m k % (t : ℤ)).toNat) (List.range (2 ^ K))).getD k 0 = (cf m k % (t : ℤ)).toNat := by
    rw [List.getD_eq_getElem _ _ (by simpa using hk), List.getElem_map, List.getElem_range]
  rw [cf_add hN, BfvP.cf_msgRing v hk, e]
  have h0 : 0 ≤ cf m k % (t : ℤ) := Int.emod_nonneg _ (by omega)
  have h1 : 0 ≤ (cf m k + ((v.getD k 0 : Nat) : ℤ)) % (t : ℤ) := Int.emod_nonneg _ (by omega)
  zify
  rw [Int.toNat_of_nonneg h1, Int.toNat_of_nonneg h0, Int.emod_add_emod]

/-- C107: answers are malleable. Whoever relays an answer can add any chosen values to what it decrypts to, without knowing the key, the row or
what was asked for: the sum has the shape of the answer, and its noise grows by `2 t` only. -/
theorem c107_shift (h : IsParams N t l variance P) {sk : SecretKey} (hk : IsKey P sk) (pr pd : Profile) {pt : Plaintext} (hp : pt.params = P)
    (hlev : pt.level < l.length) (hlen : pt.values.length ≤ N) (hv : ∀ x ∈ pt.values, x < 2 ^ 64) (h2t : 2 * t ≤ l.getD 0 0)
    {ct : BfvCipherText} {f0 f1 m : Rg N} {V : ℤ} (hct : IsCt P pt.level [f0, f1] ct)
    (he : Encodes t (levelQ l pt.level) m (phase (keyRing N sk) [f0, f1]) V) (hV : 4 * (V + 2 * t) ≤ levelQ l pt.level) :
    ∃ d z out out', forge pr pt = .ok d ∧ ct.add pr d = .ok z ∧ ShapedCt P pt.level 2 z ∧ sk.decrypt pd ct = .ok out ∧
      sk.decrypt pd z = .ok out' ∧ out'.values = (List.range N).map fun k => (out.values.getD k 0 + pt.values.getD k 0) % t := by
  obtain ⟨d, f, e1, e2, -, e4⟩ := c107_forge h pr hp hlev hlen hv
  obtain ⟨z, z1, z2, -, z3⟩ := c32_add h pr hct e2 (keyRing N sk)
  obtain ⟨out, o1, -, -, o2⟩ := c30_decrypt h hk pd (by simp) hct h2t he (by
    have : (0 : ℤ) ≤ t := by positivity
    linarith)
  obtain ⟨out', p1, -, -, p2⟩ := c30_decrypt h hk pd (by simp) z2 h2t (z3 _ _ _ _ he (e4 _)) hV
  refine ⟨d, z, out, out', e1, z1, Shape.of_isCt h z2, o1, p1, ?_⟩
  obtain ⟨K, ext, rfl, hw, rfl, -, -⟩ := BfvP.params h
  rw [p2, o2, residues_add_msgRing hw.t_prime.pos]

/-- C107: so every outcome can be reached from every answer: for any `w` below `t` there are values that turn what the answer decrypts to
into `w`. -/
theorem c107_replace (h : IsParams N t l variance P) {sk : SecretKey} (hk : IsKey P sk) (pr pd : Profile) (h2t : 2 * t ≤ l.getD 0 0) {i : Nat}
    (hi : i < l.length) {ct : BfvCipherText} {f0 f1 m : Rg N} {V : ℤ} (hct : IsCt P i [f0, f1] ct)
    (he : Encodes t (levelQ l i) m (phase (keyRing N sk) [f0, f1]) V) (hV : 4 * (V + 2 * t) ≤ levelQ l i) {w : List Nat} (hw : IsVec t N w) :
    ∃ pt d z out, pt.params = P ∧ pt.level = i ∧ IsVec t N pt.values ∧ forge pr pt = .ok d ∧ ct.add pr d = .ok z ∧ sk.decrypt pd z = .ok out ∧
      out.values = w := by
  obtain ⟨out, o1, o2⟩ := c30_decrypt_total h hk pd (by simp) hct
  have ht : 0 < t ∧ t < 2 ^ 62 := by
    obtain ⟨K, ext, -, hW, rfl, -, -⟩ := BfvP.params h
    exact ⟨hW.t_prime.pos, hW.t_lt⟩
  obtain ⟨w1, w2⟩ := hw
  obtain ⟨v, hv⟩ : ∃ v : List Nat, v = (List.range N).map fun k => (w.getD k 0 + (t - out.values.getD k 0)) % t := ⟨_, rfl⟩
  have hvl : v.length = N := by rw [hv]; simp
  have hvt : ∀ x ∈ v, x < t := by
    rw [hv]
    intro x hx
    obtain ⟨k, -, rfl⟩ := List.mem_map.mp hx
    exact Nat.mod_lt _ ht.1
  obtain ⟨d, z, out1, out', e1, e2, -, e4, e5, e6⟩ := c107_shift h hk pr pd (pt := ⟨P, i, .poly, v⟩) rfl hi hvl.le
    (fun x hx => (hvt x hx).trans (ht.2.trans (by norm_num))) h2t hct he hV
  obtain rfl := Except.ok.inj (o1.symm.trans e4)
  refine ⟨_, d, z, out', rfl, rfl, ⟨hvl, hvt⟩, e1, e2, e5, ?_⟩
  rw [e6]
  refine List.ext_getElem (by simp [w1]) fun k hk hk' => ?_
  rw [List.getElem_map, List.getElem_range]
  have hkN : k < N := by simpa using hk
  have ho : out.values.getD k 0 < t := by
    rw [List.getD_eq_getElem _ _ (by rw [o2.1]; exact hkN)]
    exact o2.2 _ (List.getElem_mem _)
  have hvk : v.getD k 0 = (w.getD k 0 + (t - out.values.getD k 0)) % t := by
    rw [hv, List.getD_eq_getElem _ _ (by simpa using hkN), List.getElem_map, List.getElem_range]
  have hwk : w.getD k 0 = w[k] := List.getD_eq_getElem _ _ hk'
  dsimp only
  rw [hvk, Nat.add_mod_mod, hwk, show out.values.getD k 0 + (w[k] + (t - out.values.getD k 0)) = w[k] + t by omega, Nat.add_mod_right,
    Nat.mod_eq_of_lt (w2 _ (List.getElem_mem _))]

/-- One forged ciphertext, two different keys, the same outcome. -/
example : ∃ P ct sk sk' out out', IsParams 8 17 Ex.mods 10 P ∧ forge .debug ⟨P, 1, .poly, [4, 16, 20]⟩ = .ok ct ∧ IsKey P sk ∧ IsKey P sk' ∧
    sk ≠ sk' ∧ sk.decrypt .debug ct = .ok out ∧ sk'.decrypt .release ct = .ok out' ∧ out.values = [4, 16, 3, 0, 0, 0, 0, 0] ∧
    out'.values = [4, 16, 3, 0, 0, 0, 0, 0] := by
  obtain ⟨P, h⟩ := Ex.exists_params
  have hd : P.degree = 8 := by
    obtain ⟨K, ext, hN, hw, -, -, -⟩ := BfvP.params h
    rw [hw.deg, ← hN]
  obtain ⟨ct, e1, -, -, e2⟩ := c107_decrypts h .debug (pt := ⟨P, 1, .poly, [4, 16, 20]⟩) rfl
    (show 1 < 3 by norm_num) (by norm_num) (by simp) (by decide) (show 8 * 17 ≤ levelQ Ex.mods 1 by decide +kernel)
  have k1 : IsKey P ⟨P, [1, -1]⟩ := ⟨rfl, by rw [hd]; norm_num, by simp⟩
  have k2 : IsKey P ⟨P, [0, 0, 5, -7]⟩ := ⟨rfl, by rw [hd]; norm_num, by simp⟩
  obtain ⟨out, o1, -, o2⟩ := e2 _ .debug k1
  obtain ⟨out', o1', -, o2'⟩ := e2 _ .release k2
  exact ⟨P, ct, _, _, out, out', h, e1, k1, k2, by simp, o1, o1', o2.trans (show (List.range 8).map (fun k => [4, 16, 20].getD k 0 % 17) = _ by decide),
    o2'.trans (show (List.range 8).map (fun k => [4, 16, 20].getD k 0 % 17) = _ by decide)⟩

/-- An encryption of `[3, 1, 16, 0, 2, 0, 0, 9]` becomes one of `[1, 1, 1, 1, 1, 1, 1, 1]`. -/
example : ∃ P sk, ∃ ct d z : BfvCipherText, ∃ out, IsParams 8 17 Ex.mods 10 P ∧ IsKey P sk ∧ ct.add .debug d = .ok z ∧
    sk.decrypt .debug z = .ok out ∧ out.values = [1, 1, 1, 1, 1, 1, 1, 1] := by
  obtain ⟨P, sk, ct, f0, f1, h, hk, -, hct, he⟩ := Ex.setup
  obtain ⟨pt, d, z, out, -, -, -, -, e2, e3, e4⟩ := c107_replace h hk .debug .debug (by decide) (i := 0) (by decide) hct he (by
    rw [show levelQ Ex.mods 0 = 1153470225841614833 by decide +kernel]; norm_num) (w := [1, 1, 1, 1, 1, 1, 1, 1]) ⟨rfl, by simp⟩
  exact ⟨P, sk, ct, d, z, out, h, hk, e2, e3, e4⟩

end OnionPIR
