import Verif.Model.RepairTests
import Verif.Props.RepairPir
import Verif.Props.Concrete
import Verif.Props.BfvExtra
import Verif.Props.Prints
/-
C94: the tests of evaluations.rs that panic as shipped hold, for all inputs and all randomness, once `gen_x_pows` returns the monomials.
-/
namespace OnionPIR
open Rg Poly Spec

variable {N t : Nat} {l : List Nat} {variance : Nat} {P : BfvParameters}
variable {aTape : Nat → Nat → Nat → Nat → Nat} {rng : Nat → Nat → Nat → Nat} {a0 a1 : Nat → Nat → Nat → Nat} {r0 r1 : Nat → Nat → Nat}

namespace RepairTests

theorem switch_le (h : TestParams N t l P) : switchNoise N l 0 ≤ 2 ^ 79 := by
  have h1 := h.switch
  have h3 : (N : ℤ) ≤ 2 ^ 11 := by exact_mod_cast h.deg
  have h4 : (l.length : ℤ) ≤ 40 := by exact_mod_cast h.few
  have h5 : (N : ℤ) * (l.length * 2 ^ 62) ≤ 2 ^ 11 * (40 * 2 ^ 62) := by gcongr
  exact (h1.trans h5).trans (by norm_num)

/-- The noise of expansion. -/
theorem unpack_room (h : TestParams N t l P) {V : ℤ} (hV : V ≤ 2 ^ 62) :
    V + t * (((N : ℤ) - 1) * (switchNoise N l 0 * (2 * ((10 : Nat) : ℤ)))) ≤ 2 ^ 119 := by
  have h0 := h.switch_nonneg
  have h1 := switch_le h
  have h2 : (t : ℤ) ≤ 2 ^ 21 := by exact_mod_cast h.pt.le
  have h3 : (N : ℤ) - 1 ≤ 2 ^ 11 := by have : (N : ℤ) ≤ 2 ^ 11 := by exact_mod_cast h.deg
                                       linarith
  have h4 : (0 : ℤ) ≤ (N : ℤ) - 1 := by have := h.N_pos; omega
  have h5 : (t : ℤ) * (((N : ℤ) - 1) * (switchNoise N l 0 * (2 * ((10 : Nat) : ℤ)))) ≤ 2 ^ 21 * (2 ^ 11 * (2 ^ 79 * (2 * ((10 : Nat) : ℤ)))) := by
    gcongr
  norm_num at h5 hV ⊢
  linarith

/-- The corrected expansion of an actual encryption, decrypted: the values. -/
theorem firstValues_ok (h : TestParams N t l P) (pr : Profile) {sk : SecretKey} (hk : IsKey P sk) {ev : Evaluation}
    (ht : EvalTapes l aTape rng a0 a1 r0 r1) (he : Evaluation.build pr sk P aTape rng a0 a1 r0 r1 = .ok ev) {v : List Nat} (hv : IsVec t N v)
    {ct : BfvCipherText} {f0 f1 : Rg N} (hct : IsCt P 0 [f0, f1] ct)
    (hen : Encodes t (levelQ l 0) (msgRing N v) (phase (keyRing N sk) [f0, f1]) (22 * t)) :
    ∃ cts, Repair.unpack pr ev ct = .ok cts ∧ firstValues pr sk cts = .ok v := by
  have hN := h.N_pos
  have ht0 : 0 < t := by have := h.t_pos; omega
  obtain ⟨xs, x1, x2⟩ := Repair.unpack_eq h.params pr
  obtain ⟨ev', e1, e2⟩ := c41_build h.params hk pr (by norm_num) (by norm_num) (by have := h.two; omega) (h.deg.trans (by norm_num)) ht.a ht.r
    ht.a0 ht.a1 ht.r0 ht.r1
  obtain rfl := Except.ok.inj (he.symm.trans e1)
  obtain ⟨cts, c1, c2, c3⟩ := c41_unpack_partial h.params pr e2 x1 hct
  refine ⟨cts, by rw [x2 _ _ hct.1 hct.2.1, c1], ?_⟩
  have hV : (22 * t : ℤ) ≤ 2 ^ 62 := by
    have h2 : (t : ℤ) ≤ 2 ^ 21 := by exact_mod_cast h.pt.le
    norm_num at h2 ⊢; linarith
  have key : ∀ (j : Nat) (hj : j < cts.length), (do let p ← sk.decrypt pr cts[j]; idx p.values 0 : Res Nat) = .ok (v.getD j 0) := by
    intro j hj
    obtain ⟨c, g0, g1, E, d1, d2, -, -, d5⟩ := c3 j (by omega)
    obtain rfl : cts[j] = c := Option.some.inj ((List.getElem?_eq_getElem hj).symm.trans d1)
    obtain ⟨pt, p1, -, -, p4⟩ := h.dec pr hk d2 (unpack_room h hV) (d5 _ _ hen)
    rw [p1, res_ok_bind, p4]
    have hcf : cf (msgRing N v) j = (v.getD j 0 : ℤ) := by
      unfold msgRing
      exact cf_ofCoeffs hN _ (by omega)
    have hjv : j < v.length := by rw [hv.1]; omega
    refine idx_of ?_
    unfold residues
    rw [List.getElem?_map, List.getElem?_range hN, Option.map_some, hcf, cf_int hN, if_pos rfl, ← Int.natCast_mod, Int.toNat_natCast,
      Nat.mod_eq_of_lt]
    rw [List.getD_eq_getElem _ _ hjv]
    exact hv.2 _ (List.getElem_mem hjv)
  unfold firstValues
  have : ∀ (xs : List BfvCipherText) (ys : List Nat), xs.length = ys.length → (∀ j (hj : j < xs.length),
      (do let p ← sk.decrypt pr xs[j]; idx p.values 0 : Res Nat) = .ok (ys.getD j 0)) →
      mapR (fun c => do let p ← sk.decrypt pr c; idx p.values 0) xs = .ok ys := by
    intro xs
    induction xs with
    | nil => intro ys hl _; cases ys with
      | nil => rfl
      | cons _ _ => simp at hl
    | cons x xs ih => intro ys hl hk; cases ys with
      | nil => simp at hl
      | cons y ys =>
        have h0 := hk 0 (by simp)
        have h1 := ih ys (by simpa using hl) fun j hj => by
          have := hk (j + 1) (by simpa using hj)
          simpa using this
        simp only [List.getElem_cons_zero, List.getD_cons_zero] at h0
        rw [mapR, h0, res_ok_bind, h1, res_ok_bind]
  exact this cts v (by rw [c2, hv.1]) key

end RepairTests

/-- C94: with the monomials, the test `unpack` shows the encrypted values twice and counts no error, for all values and all randomness. -/
theorem c94_unpack (h : TestParams N t l P) (pr : Profile) {skRng : Nat → Nat} (hs : ∀ i, skRng i < 2 ^ 64) {v : List Nat} (hv : IsVec t N v)
    (ht : EvalTapes l aTape rng a0 a1 r0 r1) {a : Nat → Nat → Nat} (ha : TapeAt l 0 a) {r : Nat → Nat} (hr : ∀ i, r i < 2 ^ 64) :
    RepairTests.unpack pr P skRng v aTape rng a0 a1 r0 r1 a r = .ok (v, v, 0) := by
  obtain ⟨sk, k1, k2, -⟩ := h.key pr hs
  obtain ⟨ev, e1⟩ := h.build pr k2 ht
  have hpad : v ++ List.replicate (N - v.length) 0 = v := by rw [hv.1]; simp
  have hP := h.plain pr hv.1.le
  rw [hpad] at hP
  obtain ⟨ct, f0, f1, c1, c2, c3⟩ := h.enc pr k2 hv.1.le (fun x hx => (hv.2 x hx).trans (h.pt.trans (by norm_num))) ha hr .poly
  obtain ⟨cts, d1, d2⟩ := RepairTests.firstValues_ok h pr k2 ht e1 hv c2 c3
  unfold RepairTests.unpack
  rw [k1, res_ok_bind, e1, res_ok_bind, hP, res_ok_bind, c1, res_ok_bind, d1, res_ok_bind, d2, res_ok_bind]
  have : (v.zip v).filter (fun x => x.1 != x.2) = [] := by
    rw [List.filter_eq_nil_iff]
    rintro ⟨x, y⟩ hx
    have := List.of_mem_zip hx
    obtain ⟨i, hi, he⟩ := List.mem_iff_getElem.mp hx
    simp only [List.getElem_zip, Prod.mk.injEq] at he
    simp [← he.1, ← he.2]
  rw [this]
  rfl

/-- C94: with the monomials, the test `client_encode` recovers the encoded query, followed by zeros, for all coordinates and all randomness. -/
theorem c94_client_encode (h : TestParams N t l P) (pr : Profile) {skRng0 skRng : Nat → Nat} (hs0 : ∀ i, skRng0 i < 2 ^ 64)
    (hs : ∀ i, skRng i < 2 ^ 64) {dims : List Nat} {rows : Nat} {v : List Nat} (hq : Client.default.encode pr dims rows = .ok v)
    (hv : v.length ≤ N) (ht : EvalTapes l aTape rng a0 a1 r0 r1) {a : Nat → Nat → Nat} (ha : TapeAt l 0 a)
    {r : Nat → Nat} (hr : ∀ i, r i < 2 ^ 64) :
    RepairTests.clientEncode pr P skRng0 skRng dims rows aTape rng a0 a1 r0 r1 a r = .ok (v, v ++ List.replicate (N - v.length) 0) := by
  obtain ⟨sk0, k0, -⟩ := h.key pr hs0
  obtain ⟨sk, k1, k2, -⟩ := h.key pr hs
  obtain ⟨ev, e1⟩ := h.build pr k2 ht
  have ht2 := h.t_pos
  have hvec : IsVec t N (v ++ List.replicate (N - v.length) 0) := ⟨by simp; omega, fun x hx => by
    rcases List.mem_append.mp hx with hx | hx
    · exact (Tests.encode_bits hq x hx).trans_le ht2
    · rw [(List.mem_replicate.mp hx).2]; omega⟩
  obtain ⟨ct, f0, f1, c1, c2, c3⟩ := h.enc pr k2 hvec.1.le (fun x hx => (hvec.2 x hx).trans (h.pt.trans (by norm_num))) ha hr .poly
  obtain ⟨cts, d1, d2⟩ := RepairTests.firstValues_ok h pr k2 ht e1 hvec c2 c3
  unfold RepairTests.clientEncode
  rw [k0, res_ok_bind, hq, res_ok_bind, k1, res_ok_bind, e1, res_ok_bind, h.plain pr hv, res_ok_bind, c1, res_ok_bind, d1, res_ok_bind, d2, res_ok_bind]

/-- C94: with the monomials, the `i`-th trial decryption of the test `unpack_decomp` is the `i`-th value times `g0` up to an error of at most
`20 + 20 (N-1) N Σ q`, which is less than `2^96`. -/
theorem c94_unpack_decomp (h : TestParams N t l P) (pr : Profile) {skRng : Nat → Nat} (hs : ∀ i, skRng i < 2 ^ 64) {v : List Nat}
    (hv : v.length ≤ N) (hv2 : ∀ x ∈ v, x < 2 ^ 64) (g0 : Nat) (ht : EvalTapes l aTape rng a0 a1 r0 r1) {a : Nat → Nat → Nat}
    (ha : TapeAt l 0 a) {r : Nat → Nat} (hr : ∀ i, r i < 2 ^ 64) :
    ∃ sk ps, RepairTests.unpackDecomp pr P skRng v g0 aTape rng a0 a1 r0 r1 a r = .ok (sk, ps) ∧ ps.length = N ∧
      ∀ i, i < N → ∃ p, ∃ E : Rg N, ps[i]? = some p ∧ Bdd (20 + (N - 1) * (switchNoise N l 0 * 20)) E ∧
        PolyAt P 0 (((v.getD i 0 * g0 : Nat) : Rg N) + E) p ∧ (20 + ((N : ℤ) - 1) * (switchNoise N l 0 * 20)) < 2 ^ 96 := by
  have hN := h.N_pos
  obtain ⟨sk, k1, k2, -⟩ := h.key pr hs
  obtain ⟨c, hc, hci⟩ := h.ctx0
  obtain ⟨p, p', p1, -, p3, p4⟩ := h.import_words pr hc hv hv2
  obtain ⟨K, ext, hNK, hw, e1, e2, e3⟩ := BfvP.params h.params
  subst hNK
  obtain ⟨L, hL⟩ := hw.levels 0 (by rw [e2]; have := h.two; omega)
  have hcL : c = L.qCtx := Option.some.inj (hc.symm.trans hL.q)
  subst hcL
  have p4' := (BfvP.polyAt_iff hL _ _).mp p4
  have s1 : p'.mulBig pr g0 = .ok (enc L.qCtx .ntt (msgRing (2 ^ K) v * ((g0 : ℤ) : Rg (2 ^ K)))) := by rw [p4', mulBig_enc hL.wf.ctx]
  have s2 : PolyAt P 0 (msgRing (2 ^ K) v * ((g0 : ℤ) : Rg (2 ^ K))) (enc L.qCtx .ntt (msgRing (2 ^ K) v * ((g0 : ℤ) : Rg (2 ^ K)))) :=
    (BfvP.polyAt_iff hL _ _).mpr rfl
  obtain ⟨ct, f0, f1, e, c1, c2, c3, c4⟩ := c30_encrypt_poly h.params k2 pr (by norm_num) (by norm_num) s2 ha hr
  obtain ⟨xs, x1, x2⟩ := Repair.unpack_eq h.params pr
  obtain ⟨ev, b1, b2⟩ := c41_build h.params k2 pr (by norm_num) (by norm_num) (by have := h.two; omega) (h.deg.trans (by norm_num)) ht.a ht.r
    ht.a0 ht.a1 ht.r0 ht.r1
  obtain ⟨cts, u1, u2, u3⟩ := c41_unpack_partial h.params pr b2 x1 c2
  have key : ∀ j ct', cts[j]? = some ct' → ∃ p, (do let c0 ← idx ct'.cts 0; let c1 ← idx ct'.cts 1; sk.decryptTrial pr c0 c1 : Res Poly) = .ok p ∧
      ∃ E : Rg (2 ^ K), Bdd (20 + ((2 ^ K : ℕ) - 1) * (switchNoise (2 ^ K) l 0 * 20)) E ∧
        PolyAt P 0 (((v.getD j 0 * g0 : Nat) : Rg (2 ^ K)) + E) p := by
    intro j ct' hj
    have hjN : j < 2 ^ K := by rw [← u2]; exact (List.getElem?_eq_some_iff.mp hj).1
    obtain ⟨c', y0, y1, E, z1, z2, z3, z4, -⟩ := u3 j hjN
    obtain rfl : ct' = c' := Option.some.inj (hj.symm.trans z1)
    obtain ⟨q0, q1, hq, hq0, hq1⟩ : ∃ q0 q1, ct'.cts = [q0, q1] ∧ PolyAt P 0 y0 q0 ∧ PolyAt P 0 y1 q1 := by
      have := z2.2.2
      cases hh : ct'.cts with
      | nil => rw [hh] at this; cases this
      | cons q0 t => rw [hh] at this; cases this with | cons w1 w2 => cases w2 with | cons w3 w4 => cases w4; exact ⟨_, _, rfl, w1, w3⟩
    obtain ⟨p, d1, d2⟩ := c57_decrypt_trial h.params k2 pr hq0 hq1
    refine ⟨p, by rw [hq]; exact d1, ((cf e j : ℤ) : Rg (2 ^ K)) + E, ?_, ?_⟩
    · have z3' : Bdd (((2 ^ K : ℕ) - 1) * (switchNoise (2 ^ K) l 0 * 20)) E := by
        have : (2 * ((10 : Nat) : ℤ)) = 20 := by norm_num
        rw [this] at z3
        exact z3
      refine Bdd.add hN (fun i _ => ?_) z3'
      rw [cf_int hN]
      have c3' : Bdd 20 e := by simpa using c3
      split_ifs
      · exact c3' j hjN
      · norm_num
    · have d2' := (BfvP.polyAt_iff hL _ _).mp d2
      refine (BfvP.polyAt_iff hL _ _).mpr (d2'.trans ?_)
      rw [enc_eq_iff hL.wf.ctx]
      have hQ : L.qCtx.Q = levelQ l 0 := by rw [← e2]; exact BfvP.levelQ_eq hL
      rw [hQ]
      refine Evaluation.cong_trans z4 ?_
      have hcf : cf (phase (keyRing (2 ^ K) sk) [f0, f1]) j = (v.getD j 0 * g0 : Nat) + cf e j := by
        rw [c4, cf_add hN, mul_comm, cf_int_mul hN]
        unfold msgRing
        rw [cf_ofCoeffs hN _ hjN]
        push_cast; ring
      rw [hcf]
      refine ⟨0, ?_⟩
      push_cast; ring
  obtain ⟨ps, m1, m2, m3⟩ := Server.mapR_list (xs := cts)
    (f := fun c => do let c0 ← idx c.cts 0; let c1 ← idx c.cts 1; sk.decryptTrial pr c0 c1)
    (p := fun j p => ∃ E : Rg (2 ^ K), Bdd (20 + ((2 ^ K : ℕ) - 1) * (switchNoise (2 ^ K) l 0 * 20)) E ∧
        PolyAt P 0 (((v.getD j 0 * g0 : Nat) : Rg (2 ^ K)) + E) p) key
  refine ⟨sk, ps, ?_, by rw [m2, u2], fun i hi => ?_⟩
  · unfold RepairTests.unpackDecomp
    rw [idx_of hc, res_ok_bind, k1, res_ok_bind, b1, res_ok_bind, p1, res_ok_bind, p3, res_ok_bind, s1, res_ok_bind, c1, res_ok_bind,
      x2 _ _ c2.1 c2.2.1, u1, res_ok_bind, m1, res_ok_bind]
  · obtain ⟨p, w1, E, w2, w3⟩ := m3 i (by rw [u2]; exact hi)
    refine ⟨p, E, w1, w2, w3, ?_⟩
    have h0 := h.switch_nonneg
    have h1 := RepairTests.switch_le h
    have h3 : (((2 ^ K : ℕ) : ℤ)) - 1 ≤ 2 ^ 11 := by
      have : (((2 ^ K : ℕ) : ℤ)) ≤ 2 ^ 11 := by exact_mod_cast h.deg
      linarith
    have h5 : ((((2 ^ K : ℕ) : ℤ)) - 1) * (switchNoise (2 ^ K) l 0 * 20) ≤ 2 ^ 11 * (2 ^ 79 * 20) := by
      gcongr
    norm_num at h5 ⊢
    linarith

namespace RepairTests

theorem msgRing_single (hN : 0 < N) (b : Nat) : msgRing N [b] = ((b : ℤ) : Rg N) := by
  refine ext_cf hN fun k hk => ?_
  unfold msgRing
  rw [cf_ofCoeffs hN _ hk, cf_int hN]
  cases k <;> simp

theorem bdd_nat (hN : 0 < N) {b : Nat} (hb : b ≤ t) : Bdd (t : ℤ) (((b : ℤ) : Rg N)) := by
  intro k _
  rw [cf_int hN]
  split_ifs
  · rw [abs_of_nonneg (by positivity)]; exact_mod_cast hb
  · simp

/-- The noise of a product by the assembled ciphertext, and of one by a fresh ciphertext. -/
theorem pack_room (h : TestParams N t l P) (hN2 : 2 ≤ N) (hl : 4 ≤ l.length) (hq : ∀ q ∈ l, 2 ^ 61 ≤ q ∧ q < 2 ^ 62) {X Y : ℤ}
    (hX : X ≤ N * (20 + (N - 1) * (switchNoise N l 0 * 20)) * 20 + switchNoise N l 0 * (20 + 20))
    (hY : Y ≤ 20 + (N - 1) * (switchNoise N l 0 * 20)) :
    4 * (N * (22 * t) * t + t * (switchNoise N l 0 * (X + Y))) ≤ levelQ l 0 := by
  have h0 := c64_noise_fits (N := N) (t := t) (variance := 10) (fd := 1) (dim := 1) (d := 1) (S := 20) h.N_pos (h.deg.trans (by norm_num))
    h.pt.le hl hq (by norm_num) hN2 (by norm_num) (by norm_num)
  refine le_trans ?_ h0
  have hs := h.switch_nonneg
  unfold answerNoise
  have h1 : (0 : ℤ) ≤ (N : ℤ) - 1 := by have := h.N_pos; omega
  have h2 : (N : ℤ) * (22 * t) * t ≤ (1 : ℕ) * (N * ((2 * t * (10 : ℕ) + 2 * t) + t * (((N : ℤ) - 1) * (switchNoise N l 0 * (2 * (10 : ℕ))))) * t) := by
    have : (0 : ℤ) ≤ t * (((N : ℤ) - 1) * (switchNoise N l 0 * (2 * (10 : ℕ)))) := by positivity
    rw [Nat.cast_one, one_mul]
    gcongr
    push_cast at this ⊢
    linarith
  have h3 : (t : ℤ) * (switchNoise N l 0 * (X + Y)) ≤ (1 : ℕ) * (t * ((1 : ℕ) * (switchNoise N l 0 *
      (N * (2 * (10 : ℕ) + (N - 1) * (switchNoise N l 0 * (2 * (10 : ℕ)))) * 20 + switchNoise N l 0 * (2 * (10 : ℕ) + 2 * (10 : ℕ)) +
        (2 * (10 : ℕ) + (N - 1) * (switchNoise N l 0 * (2 * (10 : ℕ)))))))) := by
    rw [Nat.cast_one, one_mul, one_mul]
    have e : (2 * ((10 : ℕ) : ℤ)) = 20 := by norm_num
    rw [e]
    gcongr
  linarith

end RepairTests

/-- C94: with the monomials, the test `pack_and_construct_rgsw` compares, for every query of values below the plaintext modulus and all randomness,
the product of the random vector and the first value of the query with its product by the constant. -/
theorem c94_pack_compares (h : TestParams N t l P) (hl : 4 ≤ l.length) (hq : ∀ q ∈ l, 2 ^ 61 ≤ q ∧ q < 2 ^ 62) (pr : Profile)
    {skRng : Nat → Nat} (hs : ∀ i, skRng i < 2 ^ 64) {query : List Nat} (hlen : query.length ≤ N) (hqt : ∀ x ∈ query, x < t)
    {one : Nat} (h1 : one < t)
    (ht : EvalTapes l aTape rng a0 a1 r0 r1) {a : Nat → Nat → Nat → Nat} (ha : ∀ j, TapeAt l 0 (a j)) {r : Nat → Nat → Nat}
    (hr : ∀ j i, r j i < 2 ^ 64) {b0 b1 : Nat → Nat → Nat → Nat} (hb0 : ∀ j, TapeAt l 0 (b0 j)) (hb1 : ∀ j, TapeAt l 0 (b1 j))
    {u0 u1 : Nat → Nat → Nat} (hu0 : ∀ j i, u0 j i < 2 ^ 64) (hu1 : ∀ j i, u1 j i < 2 ^ 64) {v : List Nat} (hv : v.length ≤ N)
    (hvt : ∀ x ∈ v, x < t) {a2 : Nat → Nat → Nat} (ha2 : TapeAt l 0 a2) {r2 : Nat → Nat} (hr2 : ∀ i, r2 i < 2 ^ 64) :
    RepairTests.packAndConstructRgsw pr P skRng query one aTape rng a0 a1 r0 r1 a r b0 b1 u0 u1 v a2 r2 =
      rassert (residues t (msgRing N v * ((query.getD 0 0 : ℤ) : Rg N)) = residues t (msgRing N v * ((one : ℤ) : Rg N))) := by
  have hN := h.N_pos
  have ht0 := h.t_pos
  have hb : query.getD 0 0 < t := by
    cases query with
    | nil => simp; omega
    | cons x _ => exact hqt x (by simp)
  have ht21 := h.pt
  obtain ⟨sk, k1, k2, k3⟩ := h.key pr hs
  obtain ⟨c, hc, hci⟩ := h.ctx0
  obtain ⟨skp, z1, -⟩ := Prints.key_poly h.params k2 pr hc hci
  obtain ⟨p, p', p1, -, p3, p4⟩ := h.import_words pr hc hlen (fun x hx => (hqt x hx).trans (by omega))
  obtain ⟨o, o', o1, -, o3, o4⟩ := h.import_words pr hc (v := [one]) (by simp; omega) (fun x hx => by
    rw [List.mem_singleton.mp hx]; omega)
  obtain ⟨ev, e1, e2⟩ := c41_build h.params k2 pr (by norm_num) (by norm_num) (by have := h.two; omega) (h.deg.trans (by norm_num)) ht.a ht.r
    ht.a0 ht.a1 ht.r0 ht.r1
  obtain ⟨xs, x1, x2⟩ := Repair.unpack_eq h.params pr
  obtain ⟨K, -, hNK, -⟩ := BfvP.params h.params
  subst hNK
  obtain ⟨ext, L, hw, hL, -, hml, -⟩ := Evaluation.level_zero h.params
  obtain rfl : c = L.qCtx := Option.some.inj (hc.symm.trans hL.q)
  have hg : L.qCtx.rns.garner.length = l.length := by
    obtain ⟨K, -, hw, h7⟩ := RqP.ctx hci
    rw [hw.core.rns.g_len, ← hw.core.m64, h7]
  have hlen' : L.qCtx.moduli64.length = l.length := by rw [BfvP.len_level hL]; simp [levelModuli, hml]
  have hp' := (BfvP.polyAt_iff hL _ _).mp p4
  obtain ⟨vals, v1, v2, v3⟩ := Server.mapR_list (xs := L.qCtx.rns.garner.zipIdx)
    (f := fun x : Nat × Nat => do
      let p ← p'.mulBig pr x.1
      let ct ← sk.encryptPoly pr p (a x.2) (r x.2)
      Repair.unpack pr ev ct)
    (p := fun j v => ∃ ct, ∃ g0 g1 : Rg (2 ^ K), v[0]? = some ct ∧ IsCt P 0 [g0, g1] ct ∧
        RlweGarner l 0 j (keyRing (2 ^ K) sk) ((cf (msgRing (2 ^ K) query) 0 : ℤ) : Rg (2 ^ K))
          (2 * ((10 : ℕ) : ℤ) + ((2 ^ K : ℕ) - 1) * (switchNoise (2 ^ K) l 0 * (2 * ((10 : ℕ) : ℤ)))) g0 g1) (fun j x hj => by
      obtain ⟨y, i⟩ := x
      rw [List.getElem?_zipIdx, Option.map_eq_some_iff] at hj
      obtain ⟨y', hj1, hj2⟩ := hj
      simp only [Nat.zero_add, Prod.mk.injEq] at hj2
      obtain ⟨rfl, rfl⟩ := hj2
      obtain ⟨hj3, hj4⟩ := List.getElem?_eq_some_iff.mp hj1
      have hgx : Ksk.garnerAt L.qCtx j = y' := by
        unfold Ksk.garnerAt
        rw [getD_eq_getElem' _ _ _ hj3, hj4]
      have hgar : IsGarner l 0 j (y' : ℤ) := by
        rw [← hgx, ← hml]
        exact BfvP.garner_isGarner hL (by omega)
      have hpp : PolyAt P 0 (msgRing (2 ^ K) query * (((y' : ℤ)) : Rg (2 ^ K)))
        (enc L.qCtx .ntt (msgRing (2 ^ K) query * (((y' : ℤ)) : Rg (2 ^ K)))) := (BfvP.polyAt_iff hL _ _).mpr rfl
      obtain ⟨ct, f0, f1, d1, d2, d3⟩ := c40_rlwe h.params k2 pr (by norm_num) (by norm_num) hgar hpp (ha j) (hr j)
      obtain ⟨u, w1, w2, w3⟩ := Server.unpack_rlwe h.params pr e2 x1 d2 d3 (n := 1) (by omega)
      obtain ⟨ct', g0, g1, y1, y2, y3⟩ := w3 0 (by norm_num)
      refine ⟨u, ?_, ct', g0, g1, ?_, y2, y3⟩
      · dsimp only
        rw [hp', mulBig_enc hL.wf.ctx, res_ok_bind, d1, res_ok_bind, x2 _ _ d2.1 d2.2.1, w1]
      · rw [← y1, List.getElem?_take_of_lt (by norm_num)])
  obtain ⟨g, g1, g2⟩ := Server.selectorRgsw_ok h.params pr e2.rgsw k3 (vals := vals) (i := 0) (by rw [v2, List.length_zipIdx, hg])
    (fun j v hj => by
      obtain ⟨v', y1, y2⟩ := v3 j (by rw [← v2]; exact (List.getElem?_eq_some_iff.mp hj).1)
      rw [Option.some.inj (hj.symm.trans y1)]
      exact y2)
  have hcf : cf (msgRing (2 ^ K) query) 0 = (query.getD 0 0 : Nat) := by
    unfold msgRing
    exact cf_ofCoeffs hN _ hN
  rw [hcf] at g2
  obtain ⟨gi, i1, i2⟩ := c39_encrypt_poly h.params k2 pr (by norm_num) (by norm_num) o4 hb0 hb1 hu0 hu1
  rw [RepairTests.msgRing_single hN] at i2
  have hvp : IsVec t (2 ^ K) (v ++ List.replicate (2 ^ K - v.length) 0) := ⟨by simp; omega, fun x hx => by
    rcases List.mem_append.mp hx with hx | hx
    · exact hvt x hx
    · rw [(List.mem_replicate.mp hx).2]; omega⟩
  obtain ⟨ct, f0, f1, c1, c2, c3⟩ := h.enc pr k2 hvp.1.le (fun x hx => (hvp.2 x hx).trans (by omega)) ha2 hr2 .poly
  obtain ⟨m0, m1, w0, w1, -, j1, j2, -, -, j5⟩ := c39_external_product h.params pr g2 c2
  obtain ⟨n0, n1, y0, y1, -, l1, l2, -, -, l5⟩ := c39_external_product h.params pr i2 c2
  have hN2 : 2 ≤ 2 ^ K := by
    have := hw.three
    exact le_trans (by norm_num) (Nat.pow_le_pow_right (by norm_num : 0 < 2) this)
  have hN1 : (0 : ℤ) ≤ ((2 ^ K : ℕ) : ℤ) - 1 := by have := h.N_pos; omega
  have hsw := h.switch_nonneg
  have hpos : (0 : ℤ) ≤ (((2 ^ K : ℕ) : ℤ) - 1) * (switchNoise (2 ^ K) l 0 * 20) := by positivity
  have ten : (2 * ((10 : ℕ) : ℤ)) = 20 := by norm_num
  have hbd := RepairTests.bdd_nat (t := t) hN hb.le
  obtain ⟨P1, s1, -, -, s4⟩ := c30_decrypt h.params k2 pr (by simp) j2 h.h2t (j5 _ _ _ c3 hbd)
    (RepairTests.pack_room h hN2 hl hq (by rw [ten]) (by rw [ten]))
  obtain ⟨P2, t1, -, -, t4⟩ := c30_decrypt h.params k2 pr (by simp) l2 h.h2t (l5 _ _ _ c3 (RepairTests.bdd_nat (t := t) hN h1.le))
    (RepairTests.pack_room h hN2 hl hq (by
      rw [ten]
      have h1' : (1 : ℤ) ≤ ((2 ^ K : ℕ) : ℤ) := by omega
      have h2 : (0 : ℤ) ≤ switchNoise (2 ^ K) l 0 * (20 + 20) := by positivity
      nlinarith [mul_nonneg (show (0 : ℤ) ≤ ((2 ^ K : ℕ) : ℤ) by positivity) hpos]) (by rw [ten]; linarith))
  unfold RepairTests.packAndConstructRgsw
  rw [k1, res_ok_bind, idx_of hc, res_ok_bind, z1, res_ok_bind, p1, res_ok_bind, p3, res_ok_bind, e1, res_ok_bind, v1, res_ok_bind, g1,
    res_ok_bind, o1, res_ok_bind, o3, res_ok_bind, i1, res_ok_bind, h.plain pr hv, res_ok_bind, c1, res_ok_bind, j1, res_ok_bind, l1,
    res_ok_bind]
  dsimp only
  rw [s1, res_ok_bind, t1, res_ok_bind, s4, t4, TestParams.msgRing_pad]

/-- C94: the assertion holds when the constant is the first value of the query, as in the test. -/
theorem c94_pack_and_construct_rgsw (h : TestParams N t l P) (hl : 4 ≤ l.length) (hq : ∀ q ∈ l, 2 ^ 61 ≤ q ∧ q < 2 ^ 62) (pr : Profile)
    {skRng : Nat → Nat} (hs : ∀ i, skRng i < 2 ^ 64) {one : Nat} {rest : List Nat} (hlen : rest.length < N) (hqt : ∀ x ∈ one :: rest, x < t)
    (ht : EvalTapes l aTape rng a0 a1 r0 r1) {a : Nat → Nat → Nat → Nat} (ha : ∀ j, TapeAt l 0 (a j)) {r : Nat → Nat → Nat}
    (hr : ∀ j i, r j i < 2 ^ 64) {b0 b1 : Nat → Nat → Nat → Nat} (hb0 : ∀ j, TapeAt l 0 (b0 j)) (hb1 : ∀ j, TapeAt l 0 (b1 j))
    {u0 u1 : Nat → Nat → Nat} (hu0 : ∀ j i, u0 j i < 2 ^ 64) (hu1 : ∀ j i, u1 j i < 2 ^ 64) {v : List Nat} (hv : v.length ≤ N)
    (hvt : ∀ x ∈ v, x < t) {a2 : Nat → Nat → Nat} (ha2 : TapeAt l 0 a2) {r2 : Nat → Nat} (hr2 : ∀ i, r2 i < 2 ^ 64) :
    RepairTests.packAndConstructRgsw pr P skRng (one :: rest) one aTape rng a0 a1 r0 r1 a r b0 b1 u0 u1 v a2 r2 = .ok () := by
  rw [c94_pack_compares h hl hq pr hs (query := one :: rest) (by simpa using hlen) hqt (hqt one (by simp)) ht ha hr hb0 hb1 hu0 hu1 hv hvt ha2 hr2]
  exact rassert_ok rfl

/-- C94: with another constant the assertion fails as soon as the first entry of the random vector is not zero. -/
theorem c94_pack_detects (h : TestParams N t l P) (hl : 4 ≤ l.length) (hq : ∀ q ∈ l, 2 ^ 61 ≤ q ∧ q < 2 ^ 62) (pr : Profile)
    {skRng : Nat → Nat} (hs : ∀ i, skRng i < 2 ^ 64) {query : List Nat} (hlen : query.length ≤ N) (hqt : ∀ x ∈ query, x < t)
    {one : Nat} (h1 : one < t) (hne : query.getD 0 0 ≠ one)
    (ht : EvalTapes l aTape rng a0 a1 r0 r1) {a : Nat → Nat → Nat → Nat} (ha : ∀ j, TapeAt l 0 (a j)) {r : Nat → Nat → Nat}
    (hr : ∀ j i, r j i < 2 ^ 64) {b0 b1 : Nat → Nat → Nat → Nat} (hb0 : ∀ j, TapeAt l 0 (b0 j)) (hb1 : ∀ j, TapeAt l 0 (b1 j))
    {u0 u1 : Nat → Nat → Nat} (hu0 : ∀ j i, u0 j i < 2 ^ 64) (hu1 : ∀ j i, u1 j i < 2 ^ 64) {v : List Nat} (hv : v.length ≤ N)
    (hvt : ∀ x ∈ v, x < t) (hv0 : v.getD 0 0 ≠ 0) {a2 : Nat → Nat → Nat} (ha2 : TapeAt l 0 a2) {r2 : Nat → Nat} (hr2 : ∀ i, r2 i < 2 ^ 64) :
    RepairTests.packAndConstructRgsw pr P skRng query one aTape rng a0 a1 r0 r1 a r b0 b1 u0 u1 v a2 r2 = .error .assert := by
  rw [c94_pack_compares h hl hq pr hs hlen hqt h1 ht ha hr hb0 hb1 hu0 hu1 hv hvt ha2 hr2]
  have hN := h.N_pos
  have htp : t.Prime := by
    obtain ⟨_, _, _, hw, rfl, -⟩ := BfvP.params h.params
    exact hw.t_prime
  have hb : query.getD 0 0 < t := by
    cases query with
    | nil => exact htp.pos
    | cons x _ => exact hqt x (by simp)
  have hx : v.getD 0 0 < t := by
    cases v with
    | nil => exact htp.pos
    | cons x _ => exact hvt x (by simp)
  unfold rassert
  rw [if_neg]
  intro he
  unfold residues at he
  have h0 := List.map_inj_left.mp he 0 (List.mem_range.mpr hN)
  have hcf : ∀ b : Nat, cf (msgRing N v * ((b : ℤ) : Rg N)) 0 = ((v.getD 0 0 * b : Nat) : ℤ) := by
    intro b
    rw [mul_comm, cf_int_mul hN]
    unfold msgRing
    rw [cf_ofCoeffs hN _ hN]
    push_cast; ring
  rw [hcf, hcf, ← Int.natCast_mod, ← Int.natCast_mod, Int.toNat_natCast, Int.toNat_natCast] at h0
  have hco : Nat.gcd t (v.getD 0 0) = 1 := (Nat.Prime.coprime_iff_not_dvd htp).mpr fun hd => by
    have := Nat.le_of_dvd (Nat.pos_of_ne_zero hv0) hd
    omega
  have := Nat.ModEq.cancel_left_of_coprime hco h0
  unfold Nat.ModEq at this
  rw [Nat.mod_eq_of_lt hb, Nat.mod_eq_of_lt h1] at this
  exact hne this

/-- The vector of the test `unpack`, here at degree 64 and with the tapes of the examples. -/
example : ∃ P, RepairTests.unpack .debug P (fun i => i % 1000) ((List.range 64).map fun i => i * i) (fun _ _ _ _ => 0) (fun _ _ i => i % 1000)
      (fun _ _ _ => 0) (fun _ _ _ => 0) (fun _ i => i % 1000) (fun _ i => i % 1000) (fun _ _ => 0) (fun i => i % 1000) =
    .ok ((List.range 64).map fun i => i * i, (List.range 64).map fun i => i * i, 0) := by
  obtain ⟨P, l, h, hl, hb⟩ := Ex.test_eval
  have ht := Ex.tape0 (i := 0) (Ex.test_gt h)
  exact ⟨P, c94_unpack h .debug Ex.wordTape ⟨by simp, by decide +kernel⟩ (Ex.test_tapes h) ht Ex.wordTape⟩

/-- The expansion of squares times 5, as in the test `unpack_decomp`. -/
example : ∃ P sk ps, RepairTests.unpackDecomp .debug P (fun i => i % 1000) ((List.range 64).map fun i => i * i) 5 (fun _ _ _ _ => 0)
      (fun _ _ i => i % 1000) (fun _ _ _ => 0) (fun _ _ _ => 0) (fun _ i => i % 1000) (fun _ i => i % 1000) (fun _ _ => 0) (fun i => i % 1000) =
    .ok (sk, ps) ∧ ps.length = 64 ∧ ∃ p, ∃ E : Rg 64, ps[7]? = some p ∧ Bdd (2 ^ 96) E ∧ PolyAt P 0 (((245 : Nat) : Rg 64) + E) p := by
  obtain ⟨P, l, h, hl, hb⟩ := Ex.test_eval
  have ht := Ex.tape0 (i := 0) (Ex.test_gt h)
  obtain ⟨sk, ps, h1, h2, h3⟩ := c94_unpack_decomp h .debug Ex.wordTape (v := (List.range 64).map fun i => i * i) (by simp) (by decide +kernel) 5
    (Ex.test_tapes h) ht Ex.wordTape
  obtain ⟨p, E, e1, e2, e3, e4⟩ := h3 7 (by norm_num)
  exact ⟨P, sk, ps, h1, h2, p, E, e1, fun k hk => (e2 k hk).trans e4.le, e3⟩

/-- The query of the test `pack_and_construct_rgsw`. -/
example : ∃ P, RepairTests.packAndConstructRgsw .debug P (fun i => i % 1000) [1, 0, 1, 0] 1 (fun _ _ _ _ => 0)
      (fun _ _ i => i % 1000) (fun _ _ _ => 0) (fun _ _ _ => 0) (fun _ i => i % 1000) (fun _ i => i % 1000) (fun _ _ _ => 0) (fun _ i => i % 1000)
      (fun _ _ _ => 0) (fun _ _ _ => 0) (fun _ i => i % 1000) (fun _ i => i % 1000) ((List.range 64).map fun i => i * i)
      (fun _ _ => 0) (fun i => i % 1000) = .ok () := by
  obtain ⟨P, l, h, hl, hb⟩ := Ex.test_eval
  have ht := Ex.tape0 (i := 0) (Ex.test_gt h)
  exact ⟨P, c94_pack_and_construct_rgsw h (by omega) hb .debug Ex.wordTape (one := 1) (rest := [0, 1, 0]) (by norm_num) (by simp) (Ex.test_tapes h)
    (fun _ => ht) (fun _ => Ex.wordTape) (fun _ => ht) (fun _ => ht) (fun _ => Ex.wordTape) (fun _ => Ex.wordTape) (by simp) (by decide +kernel)
    ht Ex.wordTape⟩

/-- The query of the test `client_encode`. -/
example : ∃ P, RepairTests.clientEncode .debug P (fun i => i % 1000) (fun i => i % 1000) [1, 3] 16 (fun _ _ _ _ => 0) (fun _ _ i => i % 1000)
      (fun _ _ _ => 0) (fun _ _ _ => 0) (fun _ i => i % 1000) (fun _ i => i % 1000) (fun _ _ => 0) (fun i => i % 1000) =
    .ok ([0, 1, 0, 0, 0, 0, 0, 1], [0, 1, 0, 0, 0, 0, 0, 1] ++ List.replicate 56 0) := by
  obtain ⟨P, l, h, hl, hb⟩ := Ex.test_eval
  have ht := Ex.tape0 (i := 0) (Ex.test_gt h)
  exact ⟨P, c94_client_encode h .debug Ex.wordTape Ex.wordTape (v := [0, 1, 0, 0, 0, 0, 0, 1]) (by decide +kernel) (by norm_num) (Ex.test_tapes h)
    ht Ex.wordTape⟩

/-- Had the query of the test `pack_and_construct_rgsw` begun with 0, the test would fail. -/
example : ∃ P, RepairTests.packAndConstructRgsw .debug P (fun i => i % 1000) [0, 1, 1, 0] 1 (fun _ _ _ _ => 0)
      (fun _ _ i => i % 1000) (fun _ _ _ => 0) (fun _ _ _ => 0) (fun _ i => i % 1000) (fun _ i => i % 1000) (fun _ _ _ => 0) (fun _ i => i % 1000)
      (fun _ _ _ => 0) (fun _ _ _ => 0) (fun _ i => i % 1000) (fun _ i => i % 1000) [5, 7]
      (fun _ _ => 0) (fun i => i % 1000) = .error .assert := by
  obtain ⟨P, l, h, hl, hb⟩ := Ex.test_eval
  have ht := Ex.tape0 (i := 0) (Ex.test_gt h)
  exact ⟨P, c94_pack_detects h (by omega) hb .debug Ex.wordTape (query := [0, 1, 1, 0]) (by norm_num) (by simp) (by norm_num) (by simp)
    (Ex.test_tapes h) (fun _ => ht) (fun _ => Ex.wordTape) (fun _ => ht) (fun _ => ht) (fun _ => Ex.wordTape) (fun _ => Ex.wordTape)
    (by norm_num) (by simp) (by simp) ht Ex.wordTape⟩

end OnionPIR
