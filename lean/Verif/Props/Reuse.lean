import Verif.Spec.Reuse
import Verif.Props.Rlwe
import Verif.Props.ClueLength
import Verif.Proofs.RingIso
/-
C133: masks must not be used twice: two encryptions with one mask show the difference of their messages, and a key-switching key with two equal masks shows the key.
-/
namespace OnionPIR
open Rg Poly Spec

variable {N t : Nat} {l : List Nat} {variance : Nat} {P : BfvParameters}

namespace Reuse

theorem nearZero_eq {q : Nat} {v z : ℤ} (hq : 2 * |v| < q) (h : (q : ℤ) ∣ z - v) : nearZero q (z % (q : ℤ)).toNat = v := by
  have hq0 : (0 : ℤ) < q := by have := abs_nonneg v; omega
  have e : z % (q : ℤ) = v % (q : ℤ) := Int.emod_eq_emod_iff_emod_sub_eq_zero.mpr (Int.emod_eq_zero_of_dvd h)
  have h1 := Int.emod_nonneg v hq0.ne'
  have h2 := Int.emod_lt_of_pos v hq0
  rw [e]
  unfold nearZero
  rw [Int.toNat_of_nonneg h1]
  have hb := abs_lt.mp (show |v| < q by have := abs_nonneg v; omega)
  rcases abs_cases v with ⟨a1, a2⟩ | ⟨a1, a2⟩
  · have : v % (q : ℤ) = v := Int.emod_eq_of_lt a2 (by omega)
    rw [if_pos (by omega), this]
  · have : v % (q : ℤ) = v + q := by
      rw [← Int.add_emod_right]
      exact Int.emod_eq_of_lt (by omega) (by omega)
    rw [if_neg (by omega), this]; ring

/-- The masks of a new key are those drawn. -/
theorem new_masks {pr : Profile} {sk : SecretKey} {src : Poly} {i i' : Nat} {aTape : Nat → Nat → Nat → Nat} {rng : Nat → Nat → Nat} {k : Ksk}
    (h : Ksk.new pr sk src i i' aTape rng = .ok k) : k.c1 = (List.range k.ctContext.rns.moduli.length).map fun j => Poly.random k.kskContext (aTape j) .ntt := by
  unfold Ksk.new at h
  obtain ⟨kc, -, h⟩ := bind_eq_ok.mp h
  obtain ⟨cc, -, h⟩ := bind_eq_ok.mp h
  obtain ⟨s, -, h⟩ := bind_eq_ok.mp h
  obtain ⟨c0, -, h⟩ := bind_eq_ok.mp h
  cases h
  rfl

end Reuse

/-- C133: two encryptions with the same mask: the difference of the ciphertexts decrypts to the difference of the messages with every key, whether or not it has to do
with the key that encrypted. -/
theorem c133_encrypt (h : IsParams N t l variance P) {sk : SecretKey} (hk : IsKey P sk) (pr pr' : Profile) (hv1 : 1 ≤ variance) (hv2 : variance ≤ 16)
    (h2t : 2 * t ≤ l.getD 0 0) (hQ : 16 * t * (variance + 1) ≤ levelQ l 0)
    {p p' : Plaintext} (hp : p.params = P ∧ p.level = 0 ∧ p.values.length ≤ N ∧ ∀ x ∈ p.values, x < 2 ^ 64)
    (hp' : p'.params = P ∧ p'.level = 0 ∧ p'.values.length ≤ N ∧ ∀ x ∈ p'.values, x < 2 ^ 64)
    {aTape : Nat → Nat → Nat} (ha : TapeAt l 0 aTape) {rng rng' : Nat → Nat} (hr : ∀ i, rng i < 2 ^ 64) (hr' : ∀ i, rng' i < 2 ^ 64) :
    ∃ x y z, sk.encrypt pr p aTape rng = .ok x ∧ sk.encrypt pr p' aTape rng' = .ok y ∧ x.sub pr' y = .ok z ∧
      ∀ any : SecretKey, IsKey P any → ∃ d, any.decrypt pr' z = .ok d ∧
        d.values = (List.range N).map fun k => (((p.values.getD k 0 : ℤ) - p'.values.getD k 0) % t).toNat := by
  have hN : 0 < N := by obtain ⟨K, ext, rfl, -⟩ := BfvP.params h; positivity
  have hl0 : 0 < l.length := by
    obtain ⟨K, ext, -, hw, -, rfl, -⟩ := BfvP.params h
    exact List.length_pos_iff.mpr hw.ne
  obtain ⟨x, f0, f1, a1, a2, a3⟩ := c30_encrypt h hk pr hv1 hv2 hp.1 hp.2.1 hp.2.2.1 hp.2.2.2 ha hr
  obtain ⟨y, g0, g1, b1, b2, b3⟩ := c30_encrypt h hk pr hv1 hv2 hp'.1 hp'.2.1 hp'.2.2.1 hp'.2.2.2 ha hr'
  -- the second components are the mask
  obtain ⟨⟨a, hma⟩, -⟩ := c77_mask h hl0 ha
  obtain ⟨M, -, hM⟩ := c77_encrypt h hk pr hv1 hv2 hp.1 hp.2.1 hp.2.2.1 hp.2.2.2
  obtain ⟨M', -, hM'⟩ := c77_encrypt h hk pr hv1 hv2 hp'.1 hp'.2.1 hp'.2.2.1 hp'.2.2.2
  obtain ⟨e, x', -, x1, x2⟩ := hM aTape rng hr a hma
  obtain ⟨e', y', -, y1, y2⟩ := hM' aTape rng' hr' a hma
  obtain rfl := Except.ok.inj (a1.symm.trans x1)
  obtain rfl := Except.ok.inj (b1.symm.trans y1)
  have hd : Cong (levelQ l 0) (f1 - g1) 0 := by
    obtain ⟨K, ext, rfl, hw, rfl, rfl, rfl⟩ := BfvP.params h
    obtain ⟨L, hL⟩ := hw.levels 0 hl0
    have u := ((BfvP.isCt_iff hL _ _).mp a2).2.2.symm.trans ((BfvP.isCt_iff hL _ _).mp x2).2.2
    have v := ((BfvP.isCt_iff hL _ _).mp b2).2.2.symm.trans ((BfvP.isCt_iff hL _ _).mp y2).2.2
    simp only [List.map_cons, List.map_nil, List.cons.injEq, and_true] at u v
    obtain ⟨w, hw1⟩ := (enc_eq_iff hL.wf.ctx _ _).mp u.2
    obtain ⟨w', hw2⟩ := (enc_eq_iff hL.wf.ctx _ _).mp v.2
    unfold Cong
    rw [← BfvP.levelQ_eq hL]
    exact ⟨w - w', by linear_combination hw1 - hw2⟩
  obtain ⟨z, z1, z2, -, z3⟩ := c32_sub h pr' a2 b2 (keyRing N sk)
  refine ⟨x, y, z, a1, b1, z1, fun any hany => ?_⟩
  have henc := z3 _ _ _ _ a3 b3
  have hQ' : (16 * t * (variance + 1) : ℤ) ≤ levelQ l 0 := by exact_mod_cast hQ
  have henc' : Encodes t (levelQ l 0) (msgRing N p.values - msgRing N p'.values) (phase (keyRing N any) [f0 - g0, f1 - g1])
      (2 * t * variance + 2 * t + (2 * t * variance + 2 * t)) := by
    refine BfvP.Encodes.congr henc ?_
    simp only [BfvP.phase_two]
    obtain ⟨w, hw⟩ := hd
    exact ⟨w * (keyRing N any - keyRing N sk), by linear_combination (keyRing N any - keyRing N sk) * hw⟩
  obtain ⟨d, d1, -, -, d2⟩ := c30_decrypt h hany pr' (by simp) z2 h2t henc' (by nlinarith)
  refine ⟨d, d1, d2.trans ?_⟩
  unfold residues
  refine List.map_congr_left fun k hk => ?_
  rw [cf_sub hN]
  unfold msgRing
  rw [cf_ofCoeffs hN _ (List.mem_range.mp hk), cf_ofCoeffs hN _ (List.mem_range.mp hk)]

/-- C133: if two pairs of a key-switching key have the same mask, `readSource` returns the coefficients of the source. -/
theorem c133_source (h : IsParams N t l variance P) (pr : Profile) {i : Nat} {s src : Rg N} {B S : ℤ} {k : Ksk} (hk : IsKsk P l i s src B k) (hS : Bdd S src)
    {j j' : Nat} (hne : j ≠ j') (hj : j < (levelModuli l i).length) (hj' : j' < (levelModuli l i).length) (hm : k.c1[j]? = k.c1[j']?)
    (hq : 2 * (2 * B + S) < (levelModuli l i).getD j 1) (hq' : 2 * (2 * B + S) < (levelModuli l i).getD j' 1) :
    readSource pr k j j' = .ok ((List.range N).map (cf src)) := by
  obtain ⟨K, ext, rfl, hw, rfl, rfl, rfl⟩ := BfvP.params h
  have hpos : 0 < 2 ^ K := by positivity
  have hi : i < P.ciphertextModuli.length := by rw [← hw.nLevels]; exact (List.getElem?_eq_some_iff.mp hk.1).1
  obtain ⟨L, hL⟩ := hw.levels i hi
  have hc := hL.wf.ctx
  obtain ⟨a, b, hh⟩ := BfvP.holds_of_isKsk hL hk
  have hlen := BfvP.len_level hL
  rw [← hlen] at hj hj'
  obtain ⟨e, he, w, hw1⟩ := hh.err j hj
  obtain ⟨e', he', w', hw2⟩ := hh.err j' hj'
  have hg := BfvP.garner_isGarner hL hj
  have hg' := BfvP.garner_isGarner hL hj'
  generalize (Ksk.garnerAt L.qCtx j : ℤ) = g at hg hw1
  generalize (Ksk.garnerAt L.qCtx j' : ℤ) = g' at hg' hw2
  have ham : ∃ v, a j - a j' = ((L.qCtx.Q : ℤ) : Rg (2 ^ K)) * v := by
    rw [hh.c1] at hm
    simp only [List.getElem?_map, List.getElem?_range hj, List.getElem?_range hj', Option.map_some, Option.some.injEq] at hm
    exact (enc_eq_iff hc _ _).mp hm
  obtain ⟨v, hv⟩ := ham
  have hd : ∀ n, ∃ r : ℤ, cf (b j - b j') n = (g - g') * cf src n + (cf e n - cf e' n) + L.qCtx.Q * r := by
    intro n
    have : b j - b j' = ((g - g' : ℤ) : Rg (2 ^ K)) * src + (e - e') + ((L.qCtx.Q : ℤ) : Rg (2 ^ K)) * (w - w' - v * s) := by
      rw [Int.cast_sub]
      linear_combination hw1 - hw2 - s * hv
    refine ⟨cf (w - w' - v * s) n, ?_⟩
    rw [this, cf_add hpos, cf_add hpos, cf_int_mul hpos, cf_int_mul hpos, cf_sub hpos e e']
  unfold readSource
  rw [hh.c0, idx_ok (by simpa using hj), res_ok_bind, idx_ok (by simpa using hj'), res_ok_bind, List.getElem_map, List.getElem_map, List.getElem_range, List.getElem_range,
    sub_enc hc, res_ok_bind, toPower_enc hc, res_ok_bind]
  have hrows : (enc L.qCtx .powerBasis (b j - b j')).coefficients = L.qCtx.moduli64.map (rowP (b j - b j')) := by
    rw [hc.core.m64_ops, List.map_map]; rfl
  rw [hrows, idx_ok (by simpa using hj), res_ok_bind, idx_ok (by simpa using hj'), res_ok_bind, show (enc L.qCtx .powerBasis (b j - b j')).context = L.qCtx from rfl,
    idx_ok hj, res_ok_bind, idx_ok hj', res_ok_bind, List.getElem_map, List.getElem_map]
  congr 1
  have hmod := BfvP.levelModuli_eq hL
  rw [← hmod, List.getD_eq_getElem _ _ hj] at hq
  rw [← hmod, List.getD_eq_getElem _ _ hj'] at hq'
  have d1 := hg j (by omega)
  have d2 := hg j' (by omega)
  have d3 := hg' j (by omega)
  have d4 := hg' j' (by omega)
  rw [← hmod, List.getD_eq_getElem _ _ hj] at d1 d3
  rw [← hmod, List.getD_eq_getElem _ _ hj'] at d2 d4
  simp only [if_true, if_neg hne, if_neg hne.symm] at d1 d2 d3 d4
  have hQ : ∀ q ∈ L.qCtx.moduli64, (q : ℤ) ∣ L.qCtx.Q := fun q hq => by exact_mod_cast List.dvd_prod hq
  have D := hQ _ (List.getElem_mem hj)
  have D' := hQ _ (List.getElem_mem hj')
  generalize L.qCtx.moduli64[j] = q at *
  generalize L.qCtx.moduli64[j'] = q' at *
  unfold rowP
  rw [List.zip_map', List.map_map]
  refine List.map_congr_left fun n hn => ?_
  have hn := List.mem_range.mp hn
  simp only [Function.comp]
  obtain ⟨r, hr⟩ := hd n
  have b1 := abs_le.mp (he n hn)
  have b2 := abs_le.mp (he' n hn)
  have b3 := abs_le.mp (hS n hn)
  rw [Reuse.nearZero_eq (v := cf src n + (cf e n - cf e' n)) (lt_of_le_of_lt (by
      rw [mul_le_mul_iff_right₀ (by norm_num)]; exact abs_le.mpr ⟨by omega, by omega⟩) hq) ?_,
    Reuse.nearZero_eq (v := -cf src n + (cf e n - cf e' n)) (lt_of_le_of_lt (by
      rw [mul_le_mul_iff_right₀ (by norm_num)]; exact abs_le.mpr ⟨by omega, by omega⟩) hq') ?_]
  · omega
  · rw [hr]
    obtain ⟨u1, hu1⟩ := d2
    obtain ⟨u2, hu2⟩ := d4
    obtain ⟨u3, hu3⟩ := D'
    exact ⟨(u1 - u2) * cf src n + u3 * r, by linear_combination cf src n * (hu1 - hu2) + r * hu3⟩
  · rw [hr]
    obtain ⟨u1, hu1⟩ := d1
    obtain ⟨u2, hu2⟩ := d3
    obtain ⟨u3, hu3⟩ := D
    exact ⟨(u1 - u2) * cf src n + u3 * r, by linear_combination cf src n * (hu1 - hu2) + r * hu3⟩

/-- C133: a key-switching key made with two equal masks. -/
theorem c133_ksk (h : IsParams N t l variance P) {sk : SecretKey} (hk : IsKey P sk) (pr pr' : Profile) (hv1 : 1 ≤ variance) (hv2 : variance ≤ 16)
    {i : Nat} {src : Rg N} {p : Poly} (hp : PolyAt P i src p) {S : ℤ} (hS : Bdd S src) {aTape : Nat → Nat → Nat → Nat} (ha : ∀ j, TapeAt l i (aTape j))
    {rng : Nat → Nat → Nat} (hr : ∀ j i, rng j i < 2 ^ 64) {j j' : Nat} (hne : j ≠ j') (hj : j < (levelModuli l i).length) (hj' : j' < (levelModuli l i).length)
    (hm : aTape j = aTape j') (hq : 2 * (4 * variance + S) < (levelModuli l i).getD j 1) (hq' : 2 * (4 * variance + S) < (levelModuli l i).getD j' 1) :
    ∃ k, Ksk.new pr sk p i i aTape rng = .ok k ∧ readSource pr' k j j' = .ok ((List.range N).map (cf src)) := by
  obtain ⟨k, h1, -, h2⟩ := c36_new h hk pr hv1 hv2 hp ha hr
  refine ⟨k, h1, c133_source h pr' h2 hS hne hj hj' ?_ (by omega) (by omega)⟩
  have h3 := Reuse.new_masks h1
  obtain ⟨-, -, bs, as, -, h4, -, h5, -⟩ := h2
  have h6 := h4.length_eq
  rw [h3, List.length_map, List.length_range] at h6
  rw [h3]
  simp only [List.getElem?_map, List.getElem?_range (show j < k.ctContext.rns.moduli.length by omega),
    List.getElem?_range (show j' < k.ctContext.rns.moduli.length by omega), Option.map_some, hm]

/-- C133: a Galois key with two equal masks gives the secret key away. -/
theorem c133_galois (h : IsParams N t l variance P) {sk : SecretKey} (hk : IsKey P sk) (pr pr' : Profile) (hv1 : 1 ≤ variance) (hv2 : variance ≤ 16)
    (hl : l.length ≠ 1) (hN : N ≤ 2 ^ 31) {i : Nat} {c : RqContext} (hi : P.qCtxs[i]? = some c) {x y : Nat} (hx : Odd x) (hy : Odd y) (hxy : y * x % (2 * N) = 1)
    {S : ℤ} (hS : Bdd S (keyRing N sk)) {aTape : Nat → Nat → Nat → Nat} (ha : ∀ j, TapeAt l i (aTape j))
    {rng : Nat → Nat → Nat} (hr : ∀ j i, rng j i < 2 ^ 64) {j j' : Nat} (hne : j ≠ j') (hj : j < (levelModuli l i).length) (hj' : j' < (levelModuli l i).length)
    (hm : aTape j = aTape j') (hq : 2 * (4 * variance + S) < (levelModuli l i).getD j 1) (hq' : 2 * (4 * variance + S) < (levelModuli l i).getD j' 1) :
    ∃ sub g out, Substitution.new pr c x = .ok sub ∧ GaliosKey.new pr sk sub i aTape rng = .ok g ∧ readSource pr' g.gk j j' = .ok out ∧
      substCoeffs N y out = (List.range N).map fun k => sk.coeffs.getD k 0 := by
  have hlt : i < l.length := by
    obtain ⟨K, ext, rfl, hw, rfl, rfl, rfl⟩ := BfvP.params h
    rw [← hw.nLevels]; exact (List.getElem?_eq_some_iff.mp hi).1
  obtain ⟨p, hp⟩ := c33_exists_poly h hlt (sg x (keyRing N sk))
  obtain ⟨K, ext, rfl, hw, rfl, rfl, rfl⟩ := BfvP.params h
  have hpos : 0 < 2 ^ K := by positivity
  have hb : Bdd S (sg x (keyRing (2 ^ K) sk)) := Bdd.sg hpos hS (Nat.Coprime.pow_right K (Nat.coprime_two_right.mpr hx))
  obtain ⟨k, h1, h2⟩ := c133_ksk h hk pr pr' hv1 hv2 hp hb ha hr hne hj hj' hm hq hq'
  obtain ⟨L, hL⟩ := hw.levels i hlt
  rw [hL.q] at hi
  cases hi
  have hsk := BfvP.key hw hk
  have hP := hk.1
  subst hP
  have hK : K ≤ 31 := (Nat.pow_le_pow_iff_right (by norm_num)).mp hN
  have hc := hL.wf.ctx
  obtain ⟨sub, hs⟩ : ∃ sub, Substitution.new pr L.qCtx x = .ok sub := ⟨_, Poly.substitution_new_ok hc pr hK hx⟩
  rw [(BfvP.polyAt_iff hL _ _).mp hp] at h1
  refine ⟨sub, ⟨k, sub, i⟩, _, hs, ?_, h2, ?_⟩
  · unfold GaliosKey.new
    rw [rassert_ok hl, res_ok_bind, idx_of hL.q, res_ok_bind, tryFromVecI64_ok hc pr hsk.len hsk.bound, res_ok_bind,
      substitute_enc hc pr hK hx hs, res_ok_bind, toNtt_enc hc, res_ok_bind, show sg x (ofList K sk.coeffs) = sg x (keyRing (2 ^ K) sk) from rfl,
      h1, res_ok_bind]
  unfold substCoeffs
  refine List.map_congr_left fun n hn => ?_
  have hn := List.mem_range.mp hn
  have e1 : sg y (sg x (keyRing (2 ^ K) sk)) = keyRing (2 ^ K) sk := by
    rw [sg_sg hpos hy, ← sg_mod, hxy, sg_one hpos]
  have e2 := congrArg (fun f => cf f n) e1
  simp only [cf_sg hpos y] at e2
  unfold keyRing at e2
  rw [cf_ofCoeffs hpos _ hn] at e2
  rw [← e2]
  refine Finset.sum_congr rfl fun u hu => ?_
  have hu := Finset.mem_range.mp hu
  rw [List.getD_eq_getElem _ _ (by simpa using hu), List.getElem_map, List.getElem_range]
  rfl

/-- C133: two clues for the same public key with the same selector agree exactly where their messages agree. -/
theorem c133_clue {params : PvwParams} {q : Modulus} (hn : Modulus.new params.q = .ok q) (pr : Profile) {pk : PvwPk} (hpk : IsPvwPk params pk) {e : Nat → Nat}
    (he : ∀ m, e m < 2) {msg msg' : List Nat} (hl : msg.length = params.ell) (hl' : msg'.length = params.ell) (hb : ∀ x ∈ msg, x < 2) (hb' : ∀ x ∈ msg', x < 2) :
    ∃ x y, Pvw.encrypt pr pk params msg e = .ok x ∧ Pvw.encrypt pr pk params msg' e = .ok y ∧ x.a = y.a ∧
      ∀ k, k < params.ell → (x.b.getD k 0 = y.b.getD k 0 ↔ msg.getD k 0 = msg'.getD k 0) := by
  obtain ⟨h2, h62, hqp, hq⟩ := Modulus.new_inv hn
  obtain ⟨st, h1, hv, -⟩ := Pvw.encrypt_state hn pr (ClueLength.pk hpk) he
  have key : ∀ {m : List Nat}, m.length = params.ell → (∀ x ∈ m, x < 2) →
      Pvw.encrypt pr pk params m e = .ok ⟨st.2, List.zipWith (fun v x => (v + params.q / 2 * x) % params.q) st.1 m⟩ := by
    intro m hm hbit
    unfold Pvw.encrypt
    rw [hn, res_ok_bind, h1, res_ok_bind, zipMutM_ok (g := fun v x => (v + params.q / 2 * x) % params.q) (hv.1.trans hm.symm) fun p hp => ?_]
    · rfl
    · have a1 := hv.mem p.1 (List.of_mem_zip hp).1
      have a2 := hbit p.2 (List.of_mem_zip hp).2
      have a3 : params.q / 2 * p.2 < params.q := by
        have : params.q / 2 * p.2 ≤ params.q / 2 * 1 := Nat.mul_le_mul_left _ (by omega)
        omega
      unfold Pvw.addMessage
      rw [mulW_ok (by omega), res_ok_bind, Modulus.add_ok hq pr (by omega) (by omega), hqp]
  refine ⟨_, _, key hl hb, key hl' hb', rfl, fun k hk => ?_⟩
  have l1 := hv.1
  have c := hv.2 k hk
  have b1 : msg.getD k 0 < 2 := by rw [List.getD_eq_getElem _ _ (by omega)]; exact hb _ (List.getElem_mem _)
  have b2 : msg'.getD k 0 < 2 := by rw [List.getD_eq_getElem _ _ (by omega)]; exact hb' _ (List.getElem_mem _)
  have g : ∀ {m : List Nat}, m.length = params.ell → (List.zipWith (fun v x => (v + params.q / 2 * x) % params.q) st.1 m).getD k 0 =
      (st.1.getD k 0 + params.q / 2 * m.getD k 0) % params.q := by
    intro m hm
    rw [List.getD_eq_getElem _ _ (by simp; omega), List.getElem_zipWith, List.getD_eq_getElem st.1 _ (by omega), List.getD_eq_getElem m _ (by omega)]
  simp only [g hl, g hl']
  refine ⟨fun h => ?_, fun h => by rw [h]⟩
  have d : (st.1.getD k 0 + params.q / 2) % params.q ≠ st.1.getD k 0 := by
    rcases lt_or_ge (st.1.getD k 0 + params.q / 2) params.q with h | h
    · rw [Nat.mod_eq_of_lt h]; omega
    · rw [Nat.mod_eq_sub_mod h, Nat.mod_eq_of_lt (by omega)]; omega
  rcases (show msg.getD k 0 = 0 ∨ msg.getD k 0 = 1 by omega) with u | u <;> rcases (show msg'.getD k 0 = 0 ∨ msg'.getD k 0 = 1 by omega) with w | w <;> rw [u, w] at h ⊢ <;>
    simp only [Nat.mul_zero, Nat.mul_one, Nat.add_zero, Nat.mod_eq_of_lt c] at h
  · exact absurd h.symm d
  · exact absurd h d

private def clueParams : PvwParams := ⟨2, 2, 3, 17, 1⟩

private theorem clue_pk : IsPvwPk clueParams [⟨[1, 2], [3, 4]⟩, ⟨[0, 16], [5, 6]⟩, ⟨[7, 8], [9, 10]⟩] := by
  intro m hm
  have : m < 3 := hm
  interval_cases m <;> exact ⟨_, rfl, ⟨rfl, by decide⟩, rfl, by decide⟩

/-- Two clues with one selector for an actual public key. -/
example (pr : Profile) : ∃ x y, Pvw.encrypt pr [⟨[1, 2], [3, 4]⟩, ⟨[0, 16], [5, 6]⟩, ⟨[7, 8], [9, 10]⟩] clueParams [1, 0] (fun i => i % 2) = .ok x ∧
    Pvw.encrypt pr [⟨[1, 2], [3, 4]⟩, ⟨[0, 16], [5, 6]⟩, ⟨[7, 8], [9, 10]⟩] clueParams [1, 1] (fun i => i % 2) = .ok y ∧ x.a = y.a ∧
    x.b.getD 0 0 = y.b.getD 0 0 ∧ x.b.getD 1 0 ≠ y.b.getD 1 0 := by
  obtain ⟨q, hq, -⟩ := Modulus.new_ok (p := clueParams.q) (by decide) (by decide)
  obtain ⟨x, y, h1, h2, h3, h4⟩ := c133_clue hq pr clue_pk (e := fun i => i % 2) (fun _ => by omega) (msg := [1, 0]) (msg' := [1, 1]) rfl rfl (by decide) (by decide)
  exact ⟨x, y, h1, h2, h3, (h4 0 (by decide)).mpr rfl, fun h => absurd ((h4 1 (by decide)).mp h) (by decide)⟩

/-- With the mask 0 in all pairs the key is read off the Galois key for the exponent 9; with the mask 0 in two encryptions the difference of the messages is read with
the key 0. -/
example : ∃ P sk c sub g out x y z, IsParams 8 17 Ex.mods 10 P ∧ IsKey P sk ∧ P.qCtxs[0]? = some c ∧ Substitution.new .debug c 9 = .ok sub ∧
    GaliosKey.new .debug sk sub 0 (fun _ _ _ => 0) (fun _ i => i % 1000) = .ok g ∧ readSource .release g.gk 0 2 = .ok out ∧
    substCoeffs 8 9 out = (List.range 8).map (fun k => sk.coeffs.getD k 0) ∧
    sk.encrypt .debug ⟨P, 0, .poly, [3, 4]⟩ (fun _ _ => 0) (fun i => i % 1000) = .ok x ∧
    sk.encrypt .debug ⟨P, 0, .poly, [1, 9]⟩ (fun _ _ => 0) (fun i => i % 999) = .ok y ∧ x.sub .debug y = .ok z ∧
    ∃ d, SecretKey.decrypt .debug ⟨P, []⟩ z = .ok d ∧ d.values = [2, 12, 0, 0, 0, 0, 0, 0] := by
  obtain ⟨P, sk, h, hk, hb⟩ := Ex.setup_key
  obtain ⟨p, hp⟩ := c33_exists_poly h (i := 0) (by decide) (msgRing 8 [1, 2] : Rg 8)
  obtain ⟨c, hc, -⟩ := id hp
  obtain ⟨sub, g, out, h1, h2, h3, h4⟩ := c133_galois h hk .debug .release (by norm_num) (by norm_num) (by decide) (by norm_num) hc (x := 9) (y := 9) (by decide) (by decide)
    (by norm_num) hb (aTape := fun _ _ _ => 0) Ex.tapes (fun _ => Ex.wordTape) (j := 0) (j' := 2) (by norm_num) (by decide) (by decide) rfl (by decide) (by decide)
  obtain ⟨x, y, z, e1, e2, e3, e4⟩ := c133_encrypt h hk .debug .debug (by norm_num) (by norm_num) (by decide) (by decide)
    (p := ⟨P, 0, .poly, [3, 4]⟩) (p' := ⟨P, 0, .poly, [1, 9]⟩) ⟨rfl, rfl, by norm_num, show ∀ x ∈ [3, 4], x < 2 ^ 64 by decide⟩
    ⟨rfl, rfl, by norm_num, show ∀ x ∈ [1, 9], x < 2 ^ 64 by decide⟩ (Ex.tape0 Ex.mods_gt) Ex.wordTape (rng' := fun i => i % 999) (fun i => by omega)
  obtain ⟨d, d1, d2⟩ := e4 ⟨P, []⟩ ⟨rfl, by simp, by simp⟩
  exact ⟨P, sk, c, sub, g, out, x, y, z, h, hk, hc, h1, h2, h3, h4, e1, e2, e3, d, d1, d2.trans (by rfl)⟩

end OnionPIR
