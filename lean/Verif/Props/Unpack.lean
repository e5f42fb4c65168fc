import Verif.Proofs.Unpack
/- C41: oblivious expansion of a packed ciphertext. -/
namespace OnionPIR
open Rg Spec Evaluation

variable {N t : Nat} {l : List Nat} {variance : Nat} {P : BfvParameters}

/-- C41: `build` returns usable evaluation keys for every key and randomness, at degree at most `2^31` and with at least two moduli. -/
theorem c41_build (h : IsParams N t l variance P) {sk : SecretKey} (hk : IsKey P sk) (pr : Profile) (hv1 : 1 ≤ variance) (hv2 : variance ≤ 16)
    (hl : l.length ≠ 1) (hN : N ≤ 2 ^ 31) {aTape : Nat → Nat → Nat → Nat → Nat} (ha : ∀ k j, TapeAt l 0 (aTape k j))
    {rng : Nat → Nat → Nat → Nat} (hr : ∀ k j i, rng k j i < 2 ^ 64) {a0 a1 : Nat → Nat → Nat → Nat} (ha0 : ∀ j, TapeAt l 0 (a0 j))
    (ha1 : ∀ j, TapeAt l 0 (a1 j)) {r0 r1 : Nat → Nat → Nat} (hr0 : ∀ j i, r0 j i < 2 ^ 64) (hr1 : ∀ j i, r1 j i < 2 ^ 64) :
    ∃ ev, Evaluation.build pr sk P aTape rng a0 a1 r0 r1 = .ok ev ∧
      IsEval P l (keyRing N sk) (switchNoise N l 0 * (2 * variance)) (2 * variance) (2 * variance) ev := by
  obtain ⟨K, -, hNK, -⟩ := BfvP.params h
  subst hNK
  obtain ⟨ext, L, hw, hL, -, hml, -⟩ := level_zero h
  have hK : K ≤ 31 := (Nat.pow_le_pow_iff_right (by norm_num)).mp hN
  have hgal : ∀ k e, Odd e → ∃ sub g, Substitution.new pr L.qCtx e = .ok sub ∧ GaliosKey.new pr sk sub 0 (aTape k) (rng k) = .ok g ∧
      GaloisFor P l 0 (keyRing (2 ^ K) sk) e (switchNoise (2 ^ K) l 0 * (2 * variance)) g := by
    intro k e he
    obtain ⟨sub, g, h1, h2, -⟩ := c37_galois h hk pr pr hv1 hv2 hl hN hL.q he (ha k) (hr k)
    refine ⟨sub, g, h1, h2, fun pr' ct f0 f1 hct => ?_⟩
    obtain ⟨sub', g', h1', h2', h3', -⟩ := c37_galois h hk pr pr' hv1 hv2 hl hN hL.q he (ha k) (hr k)
    obtain rfl := Except.ok.inj (h1.symm.trans h1')
    obtain rfl := Except.ok.inj (h2.symm.trans h2')
    obtain ⟨ct', x0, x1, E, y1, y2, y3, y4, -⟩ := h3' ct f0 f1 hct
    exact ⟨ct', x0, x1, E, y1, y2, y3, y4⟩
  have hskw := BfvP.key hw hk
  have hpoly : PolyAt P 0 (keyRing (2 ^ K) sk) (enc L.qCtx .ntt (sk.ring K)) := by
    rw [BfvP.polyAt_iff hL, BfvP.keyRing_eq]
  obtain ⟨g, hg, hg'⟩ := c39_encrypt_poly h hk pr hv1 hv2 hpoly ha0 ha1 hr0 hr1
  obtain ⟨gk, hfold, hgk⟩ := foldR_range_ok (f := buildStep pr sk P aTape rng) (s := []) (n := K)
    (Inv := fun n (m : List (Nat × GaliosKey)) => ∀ i, i < n → ∃ g, m.lookup (2 ^ (K - i) + 1) = some g ∧
      GaloisFor P l 0 (keyRing (2 ^ K) sk) (2 ^ (K - i) + 1) (switchNoise (2 ^ K) l 0 * (2 * variance)) g)
    (fun i hi => absurd hi (Nat.not_lt_zero _)) (by
      intro n m hn hm
      obtain ⟨sub, gg, h1, h2, h3⟩ := hgal n (2 ^ (K - n) + 1) (odd_exp hn)
      refine ⟨(2 ^ (K - n) + 1, gg) :: m, ?_, fun i hi => ?_⟩
      · unfold buildStep powW
        have e1 : n % 2 ^ 32 = n := Nat.mod_eq_of_lt (by omega)
        have e2 : 2 ^ n < 2 ^ 64 := Nat.pow_lt_pow_right (by norm_num) (by omega)
        have e3 : 2 ^ (K - n) ≤ 2 ^ 31 := Nat.pow_le_pow_right (by norm_num) (by omega)
        rw [e1, fit_ok e2, res_ok_bind, divR_ok (by positivity), res_ok_bind, hw.deg, Nat.pow_div hn.le (by norm_num), addW_ok (by omega),
          res_ok_bind, idx_of hL.q, res_ok_bind, h1, res_ok_bind, h2, res_ok_bind]
      · by_cases hin : i = n
        · subst hin
          exact ⟨gg, by rw [List.lookup_cons_self], h3⟩
        · have hlt : 2 ^ (K - n) < 2 ^ (K - i) := Nat.pow_lt_pow_right (by norm_num) (by omega)
          obtain ⟨g', q1, q2⟩ := hm i (by omega)
          refine ⟨g', ?_, q2⟩
          rw [List.lookup_cons, show (2 ^ (K - i) + 1 == 2 ^ (K - n) + 1) = false from beq_eq_false_iff_ne.mpr (by omega)]
          exact q1)
  refine ⟨⟨gk, g⟩, ?_, ⟨fun i hi => ?_, hg'⟩⟩
  · unfold Evaluation.build
    rw [hw.deg, RnsScaler.ilog2_two_pow pr (by omega), res_ok_bind, hfold, res_ok_bind, idx_of hL.q, res_ok_bind]
    have hP := hk.1
    subst hP
    rw [SecretKey.polyNtt_enc hskw pr hL.wf.ctx, res_ok_bind, hg, res_ok_bind]
  · have hi' : i < K := (Nat.pow_lt_pow_iff_right (by norm_num)).mp hi
    rw [Nat.pow_div hi'.le (by norm_num)]
    exact hgk i hi'

/-- C41, partial: the expansion loops of `unpack` are right for every ciphertext, given the monomials `X^(-2^i)` that `gen_x_pows` was
meant to compute: there are `N` results, and the `j`-th is a ciphertext whose phase is the constant `j`-th coefficient of the phase of
the argument up to `(N-1)·B`; so if the argument encodes `m`, the `j`-th result encodes the constant `m_j`. The full statement is about
`unpack` itself, and fails: see `c41_unpack_panics`. -/
theorem c41_unpack_partial (h : IsParams N t l variance P) (pr : Profile) {s : Rg N} {B B0 B1 : ℤ} {ev : Evaluation}
    (hev : IsEval P l s B B0 B1 ev) {xPows : List Poly} (hx : IsMonomials N P xPows) {ct : BfvCipherText} {f0 f1 : Rg N}
    (hct : IsCt P 0 [f0, f1] ct) :
    ∃ bits, Evaluation.unpackWith pr ev xPows ct = .ok bits ∧ bits.length = N ∧
      ∀ j, j < N → ∃ c, ∃ g0 g1 E : Rg N, bits[j]? = some c ∧ IsCt P 0 [g0, g1] c ∧ Bdd ((N - 1) * B) E ∧
        Cong (levelQ l 0) (phase s [g0, g1]) (((cf (phase s [f0, f1]) j : ℤ) : Rg N) + E) ∧
        ∀ m V, Encodes t (levelQ l 0) m (phase s [f0, f1]) V →
          Encodes t (levelQ l 0) ((cf m j : ℤ) : Rg N) (phase s [g0, g1]) (V + t * ((N - 1) * B)) := by
  obtain ⟨K, -, hNK, -⟩ := BfvP.params h
  subst hNK
  have hpos : 0 < 2 ^ K := by positivity
  obtain ⟨ext, L, hw, hL, -, hml, -⟩ := level_zero h
  have hK : K ≤ 62 := hL.wf.ctx.core.K_le
  obtain ⟨c1, c2, c3⟩ := (BfvP.isCt_iff hL _ _).mp hct
  have hQ : L.qCtx.rns.product = levelQ l 0 := by
    rw [hL.wf.ctx.core.prod, ← hml]; exact BfvP.levelQ_eq hL
  have hodd : Odd (levelQ l 0) := by
    rw [← hml, ← BfvP.levelQ_eq hL]
    refine odd_prod _ fun q hq => ?_
    obtain ⟨hp, hm⟩ := hL.wf.ctx.prime hq
    rw [Nat.odd_iff, ← Nat.mod_mod_of_dvd q (dvd_mul_right 2 (2 ^ K)), hm]
  have hcop : Nat.Coprime (2 ^ K) (levelQ l 0) := Nat.Coprime.pow_left K (Nat.coprime_two_left.mpr hodd)
  have hQ2 : 2 ≤ levelQ l 0 := by
    rw [← hml, ← BfvP.levelQ_eq hL]
    exact two_le_prod hL.wf.ctx.core.ne fun q hq => (hL.wf.ctx.prime hq).1.two_le
  obtain ⟨nInv, hn⟩ := modInverse_coprime hcop
  obtain ⟨-, -, hinv⟩ := modInverse_some hQ2 hn
  have hct' : IsCt P 0 [f0 * ((nInv : ℤ) : Rg (2 ^ K)), f1 * ((nInv : ℤ) : Rg (2 ^ K))]
      { ct with cts := [enc L.qCtx .ntt (f0 * ((nInv : ℤ) : Rg (2 ^ K))), enc L.qCtx .ntt (f1 * ((nInv : ℤ) : Rg (2 ^ K)))] } :=
    (BfvP.isCt_iff hL _ _).mpr ⟨c1, c2, rfl⟩
  obtain ⟨bits, hb, hlen, hgood⟩ := unpackStages_ok h hK pr hev hx hct'
  refine ⟨bits, ?_, hlen, fun j hj => ?_⟩
  · unfold unpackWith
    rw [c1, c2, idx_of hL.q, res_ok_bind, hw.deg, hQ, hn]
    simp only [unwrapR, res_ok_bind, c3, List.map_cons, List.map_nil, mapR, Poly.mulBig_enc hL.wf.ctx]
    rw [RnsScaler.ilog2_two_pow pr (by omega), res_ok_bind]
    have hc1 : ∀ x, ({ ct with cts := x } : BfvCipherText) = { params := P, cts := x, level := 0 } := fun x => by rw [← c1, ← c2]
    rw [hc1] at hb
    rw [hb, res_ok_bind, rassert_ok hlen, res_ok_bind]
  · obtain ⟨c, hc, g0, g1, E, h1, h2, h3⟩ := hgood j hj
    have hph : phase s [f0 * ((nInv : ℤ) : Rg (2 ^ K)), f1 * ((nInv : ℤ) : Rg (2 ^ K))] = ((nInv : ℤ) : Rg (2 ^ K)) * phase s [f0, f1] := by
      simp only [BfvP.phase_two]; ring
    have hmain : Cong (levelQ l 0) (phase s [g0, g1]) (((cf (phase s [f0, f1]) j : ℤ) : Rg (2 ^ K)) + E) := by
      refine cong_trans h3 (cong_add ?_ (cong_refl _))
      rw [hph, tr_last, cf_int_mul hpos]
      have hz : ((levelQ l 0 : ℕ) : ℤ) ∣ 2 ^ K * ((nInv : ℤ) * cf (phase s [f0, f1]) j) - cf (phase s [f0, f1]) j := by
        have : ((levelQ l 0 : ℕ) : ℤ) ∣ 2 ^ K * (nInv : ℤ) - 1 := by
          have hd := Nat.div_add_mod (2 ^ K * nInv) (levelQ l 0)
          rw [hinv] at hd
          refine ⟨((2 ^ K * nInv / levelQ l 0 : ℕ) : ℤ), ?_⟩
          rw [← Int.natCast_mul, eq_comm, eq_sub_iff_add_eq]
          exact_mod_cast hd
        rw [show 2 ^ K * ((nInv : ℤ) * cf (phase s [f0, f1]) j) - cf (phase s [f0, f1]) j
          = (2 ^ K * (nInv : ℤ) - 1) * cf (phase s [f0, f1]) j by ring]
        exact Dvd.dvd.mul_right this _
      obtain ⟨w, hw⟩ := hz
      refine ⟨((w : ℤ) : Rg (2 ^ K)), ?_⟩
      rw [← Int.cast_sub, hw, Int.cast_mul]
    have h2' : Bdd ((((2 ^ K : ℕ) : ℤ) - 1) * B) E := by rw [Nat.cast_pow]; exact h2
    refine ⟨c, g0, g1, E, hc, h1, h2', hmain, fun m V hm => ?_⟩
    refine BfvP.Encodes.congr (BfvP.Encodes.addError hpos ?_ h2') hmain
    exact encodes_coeff hpos hm hj

namespace Ex

theorem monomials {P : BfvParameters} (h : IsParams N t l variance P) (hl : l ≠ []) : ∃ xs, IsMonomials N P xs := by
  choose p hp using fun i : Nat => exists_power h (List.length_pos_iff.mpr hl) (-(xx ^ (N - 2 ^ i)) : Rg N)
  refine ⟨(List.range N).map p, fun i hi => ⟨p i, ?_, hp i⟩⟩
  have : i < N := lt_trans Nat.lt_two_pow_self hi
  simp [this]

end Ex

/-- The example keys expand an encryption of `[3, 1, 16, 0, 2, 0, 0, 9]`; the third result decrypts to the constant 16. -/
example : ∃ P sk ct ev xs bits c pt, IsParams 8 17 Ex.mods 10 P ∧ IsKey P sk ∧
    Evaluation.build .release sk P (fun _ _ _ _ => 0) (fun _ _ i => i % 1000) (fun _ _ _ => 0) (fun _ _ _ => 0) (fun _ i => i % 1000)
      (fun _ i => i % 1000) = .ok ev ∧ Evaluation.unpackWith .debug ev xs ct = .ok bits ∧ bits[2]? = some c ∧ sk.decrypt .debug c = .ok pt ∧
    pt.values = [16, 0, 0, 0, 0, 0, 0, 0] := by
  obtain ⟨P, sk, ct, f0, f1, h, hk, -, hct, he⟩ := Ex.setup
  obtain ⟨ev, h1, h2⟩ := c41_build h hk .release (by norm_num) (by norm_num) (by decide) (by norm_num) (aTape := fun _ _ _ _ => 0)
    (fun _ _ => Ex.tape0 Ex.mods_gt) (rng := fun _ _ i => i % 1000) (fun _ _ => Ex.wordTape) (a0 := fun _ _ _ => 0)
    (fun _ => Ex.tape0 Ex.mods_gt) (a1 := fun _ _ _ => 0) (fun _ => Ex.tape0 Ex.mods_gt) (r0 := fun _ i => i % 1000) (fun _ => Ex.wordTape)
    (r1 := fun _ i => i % 1000) (fun _ => Ex.wordTape)
  obtain ⟨xs, hx⟩ := Ex.monomials h (by decide)
  obtain ⟨bits, b1, -, b3⟩ := c41_unpack_partial h .debug h2 hx hct
  obtain ⟨c, g0, g1, E, c1, c2, -, -, c5⟩ := b3 2 (by norm_num)
  obtain ⟨pt, p1, -, -, p2⟩ := c30_decrypt h hk .debug (by simp) c2 (by decide) (c5 _ _ he) (by
    rw [Ex.levelQ_mods0, show switchNoise 8 Ex.mods 0 = 8 * (1048609 + 1048721 + 1048897) by decide +kernel]; norm_num)
  refine ⟨P, sk, ct, ev, xs, bits, c, pt, h, hk, h1, b1, c1, p1, ?_⟩
  rw [p2, show cf (msgRing 8 [3, 1, 16, 0, 2, 0, 0, 9] : Rg 8) 2 = 16 from cf_ofCoeffs (by norm_num) _ (by norm_num)]
  unfold residues
  simp only [cf_int (show 0 < 8 by norm_num)]
  decide

/-- C41: `unpack` as written panics for every ciphertext of every level, in both builds, whatever the evaluation keys: the second
exponent `N - 2` computed by `gen_x_pows` is even, and `Substitution::new` asserts that it is odd. -/
theorem c41_unpack_panics (h : IsParams N t l variance P) (hN : N ≤ 2 ^ 31) (pr : Profile) (ev : Evaluation) {ct : BfvCipherText}
    (hp : ct.params = P) (hl : ct.level < l.length) : Evaluation.unpack pr ev ct = .error .assert := by
  obtain ⟨K, ext, rfl, hw, rfl, rfl, rfl⟩ := BfvP.params h
  have hK : K ≤ 31 := (Nat.pow_le_pow_iff_right (by norm_num)).mp hN
  obtain ⟨L, hL⟩ := hw.levels ct.level hl
  unfold unpack
  rw [hp, idx_of hL.q, res_ok_bind, hw.deg, genXPows_panics hL.wf.ctx pr hK]
  rfl

/-- The encryption that `unpackWith` expands above makes `unpack` panic. -/
example : ∃ P sk ct, IsParams 8 17 Ex.mods 10 P ∧ IsKey P sk ∧ ∀ ev, Evaluation.unpack .release ev ct = .error .assert := by
  obtain ⟨P, sk, ct, f0, f1, h, hk, -, hct, -⟩ := Ex.setup
  exact ⟨P, sk, ct, h, hk, fun ev => c41_unpack_panics h (by norm_num) .release ev hct.1 (by rw [hct.2.1]; decide)⟩

end OnionPIR
