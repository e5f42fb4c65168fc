import Verif.Props.Ksk
import Verif.Spec.Rlwe
import Verif.Proofs.Rlwe
/-
Property C77: encryptions and key-switching keys are exactly RLWE samples, with uniform masks and the sampled errors, plus a multiple of the
message.
-/
namespace OnionPIR
open Rg Poly Spec

variable {N t : Nat} {l : List Nat} {variance : Nat} {P : BfvParameters}

/-! ### Masks -/

/-- C77: every tape gives a mask, and only one modulo the ciphertext modulus. -/
theorem c77_mask (h : IsParams N t l variance P) {i : Nat} (hi : i < l.length) {tape : Nat → Nat → Nat} (ht : TapeAt l i tape) :
    (∃ a : Rg N, IsMask P i tape a) ∧ ∀ a a' : Rg N, IsMask P i tape a → (IsMask P i tape a' ↔ Cong (levelQ l i) a a') := by
  obtain ⟨K, ext, rfl, hw, rfl, rfl, rfl⟩ := BfvP.params h
  obtain ⟨L, hL⟩ := hw.levels i hi
  have hm : ∀ a : Rg (2 ^ K), IsMask P i tape a ↔ Poly.random L.qCtx tape .ntt = enc L.qCtx .ntt a := by
    intro a
    unfold IsMask
    rw [hL.q]
    constructor
    · rintro ⟨c, hc, h2⟩
      cases hc
      exact (BfvP.polyAt_iff hL _ _).mp h2
    · exact fun h2 => ⟨_, rfl, (BfvP.polyAt_iff hL _ _).mpr h2⟩
  obtain ⟨a, ha⟩ := random_enc hL.wf.ctx (BfvP.tape hL ht)
  refine ⟨⟨a, (hm a).mpr ha⟩, fun a a' h1 => ?_⟩
  rw [hm] at h1 ⊢
  rw [h1, enc_eq_iff hL.wf.ctx, BfvP.levelQ_eq hL]
  rfl

theorem Rows.tapeAt {i : Nat} (hq : ∀ q ∈ l, 0 < q) (r : Rows N l i) : TapeAt l i r.tape := by
  intro k j hk
  unfold Rows.tape
  split
  · exact (r _ _).2
  · rw [getD_eq_getElem' _ _ _ hk]
    exact hq _ (List.mem_of_mem_take (List.getElem_mem hk))

/-- C77: the mask is uniform: every residue class modulo the ciphertext modulus is the mask of exactly one choice of values. -/
theorem c77_mask_uniform (h : IsParams N t l variance P) {i : Nat} (hi : i < l.length) (a : Rg N) :
    ∃! r : Rows N l i, IsMask P i r.tape a := by
  obtain ⟨K, ext, rfl, hw, rfl, rfl, rfl⟩ := BfvP.params h
  obtain ⟨L, hL⟩ := hw.levels i hi
  have hc := hL.wf.ctx
  have hmods : L.qCtx.moduli64 = levelModuli P.ciphertextModuli i := hL.wf.mods
  have hl : L.qCtx.moduli.length = (levelModuli P.ciphertextModuli i).length := by
    rw [← hmods, hc.core.m64, ← hc.core.rns.ps, hc.core.mods, List.length_map]
  obtain ⟨hv1, hv2⟩ := enc_valid hc .ntt a
  have hm : ∀ r : Rows (2 ^ K) P.ciphertextModuli i, IsMask P i r.tape a ↔ Poly.random L.qCtx r.tape .ntt = enc L.qCtx .ntt a := by
    intro r
    unfold IsMask
    rw [hL.q]
    constructor
    · rintro ⟨c, hc, h2⟩
      cases hc
      exact (BfvP.polyAt_iff hL _ _).mp h2
    · exact fun h2 => ⟨_, rfl, (BfvP.polyAt_iff hL _ _).mpr h2⟩
  have hdeg : L.qCtx.degree = 2 ^ K := hc.core.deg
  set q := (enc L.qCtx .ntt a).coefficients with hqdef
  have hcontext : (enc L.qCtx .ntt a).context = L.qCtx := rfl
  rw [hcontext, hmods] at hv1
  rw [hcontext, hmods, hdeg] at hv2
  have hrand : ∀ r : Rows (2 ^ K) P.ciphertextModuli i, Poly.random L.qCtx r.tape .ntt = enc L.qCtx .ntt a ↔
      (List.range (levelModuli P.ciphertextModuli i).length).map (fun k => (List.range (2 ^ K)).map fun j => r.tape k j) = q := by
    intro r
    unfold Poly.random
    rw [hl, hdeg]
    constructor
    · intro h1
      exact congrArg Poly.coefficients h1
    · intro h1
      rw [h1]
      rfl
  have hlt : ∀ (k : Fin (levelModuli P.ciphertextModuli i).length) (j : Fin (2 ^ K)),
      (q.getD k []).getD j 0 < (levelModuli P.ciphertextModuli i).getD k 1 := by
    intro k j
    obtain ⟨h1, h2⟩ := hv2 k k.2
    rw [getD_eq_getElem' _ _ _ (by rw [h1]; exact j.2)]
    exact h2 _ (List.getElem_mem _)
  refine ⟨fun k j => ⟨(q.getD k []).getD j 0, hlt k j⟩, (hm _).mpr ((hrand _).mpr ?_), ?_⟩
  · apply List.ext_getElem (by simp [hv1])
    intro k h1 h2
    have hk : k < (levelModuli P.ciphertextModuli i).length := by simpa using h1
    have h3 := (hv2 k hk).1
    rw [getD_eq_getElem' _ _ _ h2] at h3
    rw [List.getElem_map, List.getElem_range]
    apply List.ext_getElem (by simp [h3])
    intro j h4 h5
    rw [List.getElem_map, List.getElem_range]
    unfold Rows.tape
    rw [dif_pos ⟨hk, by omega⟩]
    show (q.getD k []).getD j 0 = _
    rw [getD_eq_getElem' _ _ _ h2, getD_eq_getElem' _ _ _ h5]
  · intro r hr
    have h1 := (hrand r).mp ((hm r).mp hr)
    funext k j
    apply Fin.ext
    show (r k j : Nat) = (q.getD k []).getD j 0
    have e1 : q.getD k [] = (List.range (2 ^ K)).map fun j => r.tape k j := by
      rw [← h1, getD_eq_getElem' _ _ _ (by simp), List.getElem_map, List.getElem_range]
    have e2 : ((List.range (2 ^ K)).map fun j => r.tape k j).getD j 0 = r.tape k j := by
      rw [getD_eq_getElem' _ _ _ (by simp), List.getElem_map, List.getElem_range]
    rw [e1, e2]
    unfold Rows.tape
    rw [dif_pos ⟨k.2, j.2⟩]

theorem Rlwe.mask_iff {K : Nat} {P : BfvParameters} {ext : List Nat} {i : Nat} {L : BfvLevel} (hL : P.At K ext i L) (tape : Nat → Nat → Nat)
    (a : Rg (2 ^ K)) : IsMask P i tape a ↔ Poly.random L.qCtx tape .ntt = enc L.qCtx .ntt a := by
  unfold IsMask
  rw [hL.q]
  constructor
  · rintro ⟨c, hc, h2⟩
    cases hc
    exact (BfvP.polyAt_iff hL _ _).mp h2
  · exact fun h2 => ⟨_, rfl, (BfvP.polyAt_iff hL _ _).mpr h2⟩

/-! ### Encryption -/

/-- C77: an encryption is an RLWE sample `(e - a s, a)` with the mask `a` and the error `e` drawn from the tapes, plus `(M, 0)`, where `M`
depends on the plaintext only and is its scaling by `Q/t` up to rounding. -/
theorem c77_encrypt (h : IsParams N t l variance P) {sk : SecretKey} (hk : IsKey P sk) (pr : Profile) (hv1 : 1 ≤ variance)
    (hv2 : variance ≤ 16) {pt : Plaintext} (hp : pt.params = P) (hlev : pt.level = 0) (hlen : pt.values.length ≤ N)
    (hval : ∀ x ∈ pt.values, x < 2 ^ 64) :
    ∃ M : Rg N, (∀ k, k < N → ∃ r : ℤ, 0 ≤ r ∧ r < 2 * t ∧ t * cf M k = levelQ l 0 * (pt.values.getD k 0 : ℤ) - r) ∧
      ∀ (aTape : Nat → Nat → Nat) (rng : Nat → Nat), (∀ i, rng i < 2 ^ 64) → ∀ a : Rg N, IsMask P 0 aTape a →
        ∃ e ct, sampleVecCbd pr rng N variance = .ok e ∧ sk.encrypt pr pt aTape rng = .ok ct ∧
          IsCt P 0 [smallRing N e - a * keyRing N sk + M, a] ct := by
  obtain ⟨K, ext, rfl, hw, rfl, rfl, rfl⟩ := BfvP.params h
  have hl0 : 0 < P.ciphertextModuli.length := List.length_pos_iff.mpr hw.ne
  obtain ⟨L, hL⟩ := hw.levels 0 hl0
  have hsk := BfvP.key hw hk
  have hp' := hk.1
  subst hp'
  obtain ⟨M, hM, hMr⟩ := Plaintext.toPoly_enc (p := pt) (by rw [hp]; exact hw) (by rw [hp, hlev]; exact hL) pr hlen hval
  refine ⟨M, ?_, fun aTape rng hr a ha => ?_⟩
  · intro k hk
    obtain ⟨r, r1, r2, r3⟩ := hMr k hk
    rw [hp] at r2 r3
    refine ⟨r, r1, r2, ?_⟩
    rw [← BfvP.levelQ_eq hL]
    exact r3
  · have hct := SecretKey.encryptPoly_exact hsk pr hL.wf.ctx hv1 hv2 M ((Rlwe.mask_iff hL _ _).mp ha) hr
    refine ⟨_, _, sampleVecCbd_ok pr hr hv1 hv2 _, by unfold SecretKey.encrypt; rw [hM, res_ok_bind, hct], ?_⟩
    exact (BfvP.isCt_iff hL _ _).mpr ⟨rfl, rfl, rfl⟩

/-- C77: for fixed randomness of the error, the ciphertexts of a plaintext are exactly the pairs with phase `M + e`, and each of them arises
from exactly one choice of the values of the mask: the second component is uniform and says nothing about the plaintext. -/
theorem c77_encrypt_uniform (h : IsParams N t l variance P) {sk : SecretKey} (hk : IsKey P sk) (pr : Profile) (hv1 : 1 ≤ variance)
    (hv2 : variance ≤ 16) {pt : Plaintext} (hp : pt.params = P) (hlev : pt.level = 0) (hlen : pt.values.length ≤ N)
    (hval : ∀ x ∈ pt.values, x < 2 ^ 64) :
    ∃ M : Rg N, ∀ (rng : Nat → Nat), (∀ i, rng i < 2 ^ 64) → ∃ e, sampleVecCbd pr rng N variance = .ok e ∧ ∀ c0 c1 : Rg N,
      (Cong (levelQ l 0) (phase (keyRing N sk) [c0, c1]) (M + smallRing N e) →
        ∃! r : Rows N l 0, ∃ ct, sk.encrypt pr pt r.tape rng = .ok ct ∧ IsCt P 0 [c0, c1] ct) ∧
      ∀ (r : Rows N l 0) (ct : BfvCipherText), sk.encrypt pr pt r.tape rng = .ok ct → IsCt P 0 [c0, c1] ct →
        Cong (levelQ l 0) (phase (keyRing N sk) [c0, c1]) (M + smallRing N e) := by
  obtain ⟨M, -, hM⟩ := c77_encrypt h hk pr hv1 hv2 hp hlev hlen hval
  have hl0 : 0 < l.length := by
    obtain ⟨K, ext, rfl, hw, rfl, rfl, rfl⟩ := BfvP.params h
    exact List.length_pos_iff.mpr hw.ne
  have hq : ∀ q ∈ l, 0 < q := fun q hq => by have := h.2.2.1 q hq; omega
  -- a ciphertext determines its components
  have hcts : ∀ (ct : BfvCipherText) (f0 f1 g0 g1 : Rg N), IsCt P 0 [f0, f1] ct →
      (IsCt P 0 [g0, g1] ct ↔ Cong (levelQ l 0) f0 g0 ∧ Cong (levelQ l 0) f1 g1) := by
    intro ct f0 f1 g0 g1 hf
    obtain ⟨K, ext, rfl, hw, rfl, rfl, rfl⟩ := BfvP.params h
    obtain ⟨L, hL⟩ := hw.levels 0 hl0
    obtain ⟨x1, x2, x3⟩ := (BfvP.isCt_iff hL _ _).mp hf
    rw [BfvP.isCt_iff hL, x3]
    unfold Cong
    rw [← BfvP.levelQ_eq hL, ← enc_eq_iff hL.wf.ctx (r := .ntt), ← enc_eq_iff hL.wf.ctx (r := .ntt)]
    simp [x1, x2]
  refine ⟨M, fun rng hr => ?_⟩
  obtain ⟨r0, -, -⟩ := c77_mask_uniform h hl0 (0 : Rg N)
  obtain ⟨a0, ha0⟩ := (c77_mask h hl0 (Rows.tapeAt hq r0)).1
  obtain ⟨e, -, he, -, -⟩ := hM _ rng hr a0 ha0
  refine ⟨e, he, fun c0 c1 => ⟨fun hc => ?_, fun r ct henc hct => ?_⟩⟩
  · obtain ⟨r, hr1, hr2⟩ := c77_mask_uniform h hl0 c1
    refine ⟨r, ?_, fun r' hr' => ?_⟩
    · obtain ⟨e', ct, h1, h2, h3⟩ := hM _ rng hr c1 hr1
      obtain rfl := Except.ok.inj (he.symm.trans h1)
      refine ⟨ct, h2, (hcts _ _ _ _ _ h3).mpr ⟨?_, by unfold Cong; simp⟩⟩
      unfold Cong at hc ⊢
      rw [← dvd_neg]
      refine hc.trans (dvd_of_eq ?_)
      simp only [phase]
      ring
    · obtain ⟨ct, h1, h2⟩ := hr'
      apply hr2
      have hmask := c77_mask h hl0 (Rows.tapeAt hq r')
      obtain ⟨a, ha⟩ := hmask.1
      refine (hmask.2 a c1 ha).mpr ?_
      obtain ⟨e', ct', h3, h4, h5⟩ := hM _ rng hr a ha
      obtain rfl := Except.ok.inj (h1.symm.trans h4)
      exact ((hcts _ _ _ _ _ h5).mp h2).2
  · obtain ⟨a, ha⟩ := (c77_mask h hl0 (Rows.tapeAt hq r)).1
    obtain ⟨e', ct', h3, h4, h5⟩ := hM _ rng hr a ha
    obtain rfl := Except.ok.inj (he.symm.trans h3)
    obtain rfl := Except.ok.inj (henc.symm.trans h4)
    obtain ⟨⟨x, hx⟩, ⟨y, hy⟩⟩ := (hcts _ _ _ _ _ h5).mp hct
    refine ⟨-x - y * keyRing N sk, ?_⟩
    simp only [phase]
    linear_combination -hx - keyRing N sk * hy

/-! ### Key-switching keys -/

/-- C77: the pairs of a key-switching key are RLWE samples with the masks and errors drawn from the tapes, plus `src` times the Garner
coefficients. -/
theorem c77_ksk (h : IsParams N t l variance P) {sk : SecretKey} (hk : IsKey P sk) (pr : Profile) (hv1 : 1 ≤ variance) (hv2 : variance ≤ 16)
    {i : Nat} {src : Rg N} {p : Poly} (hp : PolyAt P i src p) {aTape : Nat → Nat → Nat → Nat} {a : Nat → Rg N}
    (ha : ∀ j, IsMask P i (aTape j) (a j)) {rng : Nat → Nat → Nat} (hr : ∀ j i, rng j i < 2 ^ 64) :
    ∃ k e, Ksk.new pr sk p i i aTape rng = .ok k ∧ (∀ j, sampleVecCbd pr (rng j) N variance = .ok (e j)) ∧
      RlweKsk P l i (keyRing N sk) src a e k := by
  obtain ⟨K, ext, rfl, hw, rfl, rfl, rfl⟩ := BfvP.params h
  obtain ⟨L, hL⟩ := hw.levels i (BfvP.level_lt hw hp)
  have hsk := BfvP.key hw hk
  have hP := hk.1
  subst hP
  rw [(BfvP.polyAt_iff hL _ _).mp hp]
  have hnew := Ksk.new_exact hsk pr hL hv1 hv2 src (fun j => (Rlwe.mask_iff hL _ _).mp (ha j)) hr
  refine ⟨_, fun j => (List.range (2 ^ K)).map (cbdValue (rng j) sk.params.variance), hnew, fun j => sampleVecCbd_ok pr (hr j) hv1 hv2 _,
    fun j => Ksk.garnerAt L.qCtx j, fun j hj => BfvP.garner_isGarner hL (by rw [BfvP.len_level hL]; exact hj), ?_, ?_⟩
  · rw [← BfvP.len_level hL]
    have : ∀ (n : Nat) (f : Nat → Rg (2 ^ K)), List.Forall₂ (PolyAt sk.params i) ((List.range n).map f)
        ((List.range n).map fun j => enc L.qCtx .ntt (f j)) := by
      intro n f
      rw [List.forall₂_map_left_iff, List.forall₂_map_right_iff, List.forall₂_same]
      exact fun j _ => (BfvP.polyAt_iff hL _ _).mpr rfl
    exact this _ _
  · rw [← BfvP.len_level hL, List.forall₂_map_left_iff, List.forall₂_map_right_iff, List.forall₂_same]
    exact fun j _ => (BfvP.polyAt_iff hL _ _).mpr rfl

/-- C77: the exact error of a key switch: the sum over the moduli of the residues of the input times the sampled errors of the key. -/
theorem c77_key_switch (h : IsParams N t l variance P) {sk : SecretKey} (hk : IsKey P sk) (pr : Profile) (hv1 : 1 ≤ variance)
    (hv2 : variance ≤ 16) {i : Nat} {src : Rg N} {p : Poly} (hp : PolyAt P i src p)
    {aTape : Nat → Nat → Nat → Nat} (ha : ∀ j, TapeAt l i (aTape j)) {rng : Nat → Nat → Nat} (hr : ∀ j i, rng j i < 2 ^ 64) :
    ∃ k e, Ksk.new pr sk p i i aTape rng = .ok k ∧ (∀ j, sampleVecCbd pr (rng j) N variance = .ok (e j)) ∧
      ∀ (pr' : Profile) (f : Rg N) (q : Poly), PowerAt P i f q → ∃ p0 p1, ∃ r0 r1 : Rg N,
        k.keySwitch pr' q = .ok (p0, p1) ∧ PolyAt P i r0 p0 ∧ PolyAt P i r1 p1 ∧
        Cong (levelQ l i) (r0 + r1 * keyRing N sk) (f * src + switchError l i f e) := by
  obtain ⟨K, ext, rfl, hw, rfl, rfl, rfl⟩ := BfvP.params h
  obtain ⟨L, hL⟩ := hw.levels i (BfvP.level_lt hw hp)
  have hsk := BfvP.key hw hk
  have hP := hk.1
  subst hP
  have hc := hL.wf.ctx
  rw [(BfvP.polyAt_iff hL _ _).mp hp]
  choose a ha' using fun j => random_enc hc (BfvP.tape hL (ha j))
  have hnew := Ksk.new_exact hsk pr hL hv1 hv2 src ha' hr
  set e : Nat → List Int := fun j => (List.range (2 ^ K)).map (cbdValue (rng j) sk.params.variance)
  have hid : ∀ j, (ofList K (e j) - a j * sk.ring K + src * ((Ksk.garnerAt L.qCtx j : ℤ) : Rg (2 ^ K))) + a j * sk.ring K =
      src * ((Ksk.garnerAt L.qCtx j : ℤ) : Rg (2 ^ K)) + ofList K (e j) := fun j => by ring
  refine ⟨_, e, hnew, fun j => sampleVecCbd_ok pr (hr j) hv1 hv2 _, fun pr' f q hq => ?_⟩
  rw [(BfvP.powerAt_iff hL _ _).mp hq]
  have hsw := Ksk.switch_exact hc hid f
  have hks := Ksk.keySwitch_enc (K := K) (s := sk.ring K) (src := src) (B := 2 * sk.params.variance) hc pr'
    (k := ⟨sk.params, (List.range L.qCtx.moduli64.length).map fun j =>
      enc L.qCtx .ntt (ofList K (e j) - a j * sk.ring K + src * ((Ksk.garnerAt L.qCtx j : ℤ) : Rg (2 ^ K))),
      (List.range L.qCtx.moduli64.length).map fun j => enc L.qCtx .ntt (a j), L.qCtx, L.qCtx⟩) (a := a)
    (b := fun j => ofList K (e j) - a j * sk.ring K + src * ((Ksk.garnerAt L.qCtx j : ℤ) : Rg (2 ^ K)))
    ⟨rfl, rfl, rfl, rfl, fun j _ => ⟨ofList K (e j), ofList_bdd (by positivity) (fun x hx => by
      obtain ⟨i, -, rfl⟩ := List.mem_map.mp hx
      exact abs_le.mpr (cbdValue_bound _ _ i)), by rw [hid, sub_self]; exact dvd_zero _⟩⟩ f
  refine ⟨_, _, _, _, hks, (BfvP.polyAt_iff hL _ _).mpr rfl, (BfvP.polyAt_iff hL _ _).mpr rfl, ?_⟩
  unfold Cong
  rw [← BfvP.levelQ_eq hL]
  refine hsw.trans (dvd_of_eq ?_)
  unfold switchError
  rw [← BfvP.len_level hL]
  congr 2
  apply Finset.sum_congr rfl
  intro j _
  unfold Ksk.digit digitRing Ksk.modAt levelModuli
  rw [hL.wf.mods]
  rfl

/-- C77: the exact error of `GaliosKey::relinearize`. -/
theorem c77_galois (h : IsParams N t l variance P) {sk : SecretKey} (hk : IsKey P sk) (pr : Profile) (hv1 : 1 ≤ variance) (hv2 : variance ≤ 16)
    (hl : l.length ≠ 1) (hN : N ≤ 2 ^ 31) {i : Nat} {c : RqContext} (hi : P.qCtxs[i]? = some c) {x : Nat} (hx : Odd x)
    {aTape : Nat → Nat → Nat → Nat} (ha : ∀ j, TapeAt l i (aTape j)) {rng : Nat → Nat → Nat} (hr : ∀ j i, rng j i < 2 ^ 64) :
    ∃ sub g e, Substitution.new pr c x = .ok sub ∧ GaliosKey.new pr sk sub i aTape rng = .ok g ∧
      (∀ j, sampleVecCbd pr (rng j) N variance = .ok (e j)) ∧
      ∀ (pr' : Profile) (ct : BfvCipherText) (f0 f1 : Rg N), IsCt P i [f0, f1] ct → ∃ ct', ∃ r0 r1 : Rg N, g.relinearize pr' ct = .ok ct' ∧
        IsCt P i [r0, r1] ct' ∧
        Cong (levelQ l i) (phase (keyRing N sk) [r0, r1]) (sg x (phase (keyRing N sk) [f0, f1]) + switchError l i (sg x f1) e) := by
  obtain ⟨p, hp⟩ := c33_exists_poly h (i := i) (by
    obtain ⟨K, ext, rfl, hw, rfl, rfl, rfl⟩ := BfvP.params h
    rw [← hw.nLevels]; exact (List.getElem?_eq_some_iff.mp hi).1) (sg x (keyRing N sk))
  obtain ⟨k, e, h1, h2, h3⟩ := c77_key_switch h hk pr hv1 hv2 hp ha hr
  obtain ⟨K, ext, rfl, hw, rfl, rfl, rfl⟩ := BfvP.params h
  have hpos : 0 < 2 ^ K := by positivity
  obtain ⟨L, hL⟩ := hw.levels i (BfvP.level_lt hw hp)
  rw [hL.q] at hi
  cases hi
  have hsk := BfvP.key hw hk
  have hP := hk.1
  subst hP
  have hc := hL.wf.ctx
  have hK : K ≤ 31 := (Nat.pow_le_pow_iff_right (by norm_num)).mp hN
  obtain ⟨sub, hs⟩ : ∃ sub, Substitution.new pr L.qCtx x = .ok sub := ⟨_, Poly.substitution_new_ok hc pr hK hx⟩
  rw [(BfvP.polyAt_iff hL _ _).mp hp] at h1
  refine ⟨sub, ⟨k, sub, i⟩, e, hs, ?_, h2, fun pr' ct f0 f1 hct => ?_⟩
  · unfold GaliosKey.new
    rw [rassert_ok hl, res_ok_bind, idx_of hL.q, res_ok_bind, tryFromVecI64_ok hc pr hsk.len hsk.bound, res_ok_bind,
      substitute_enc hc pr hK hx hs, res_ok_bind, toNtt_enc hc, res_ok_bind, show sg x (ofList K sk.coeffs) = sg x (keyRing (2 ^ K) sk) from rfl,
      h1, res_ok_bind]
  · obtain ⟨x1, x2, x3⟩ := (BfvP.isCt_iff hL _ _).mp hct
    obtain ⟨p0, p1, r0, r1, y1, y2, y3, y4⟩ := h3 pr' (sg x f1) _ ((BfvP.powerAt_iff hL _ _).mpr rfl)
    rw [(BfvP.polyAt_iff hL _ _).mp y2, (BfvP.polyAt_iff hL _ _).mp y3] at y1
    refine ⟨⟨ct.params, [enc L.qCtx .ntt (r0 + sg x f0), enc L.qCtx .ntt r1], i⟩, r0 + sg x f0, r1, ?_,
      (BfvP.isCt_iff hL _ _).mpr ⟨x1, rfl, rfl⟩, ?_⟩
    · unfold GaliosKey.relinearize
      rw [rassert_ok x2, res_ok_bind, x3]
      simp only [List.map_cons, List.map_nil, show ∀ a b : Poly, idx [a, b] 0 = .ok a from fun _ _ => rfl,
        show ∀ a b : Poly, idx [a, b] 1 = .ok b from fun _ _ => rfl,
        res_ok_bind, substitute_enc hc pr' hK hx hs, toPower_enc hc, y1, add_enc hc, dassert_ok (show (enc L.qCtx .ntt f0).representation = .ntt from rfl)]
    · rw [BfvP.phase_two, BfvP.phase_two, sg_add hpos, sg_mul hpos hx]
      refine y4.trans (dvd_of_eq ?_)
      ring

/-- C77: the exact error of `relinearize_poly`, for polynomials in either representation. -/
theorem c77_relinearize (h : IsParams N t l variance P) {sk : SecretKey} (hk : IsKey P sk) (pr : Profile) (hv1 : 1 ≤ variance)
    (hv2 : variance ≤ 16) {i : Nat} (hi : i < l.length) {aTape : Nat → Nat → Nat → Nat} (ha : ∀ j, TapeAt l i (aTape j))
    {rng : Nat → Nat → Nat} (hr : ∀ j i, rng j i < 2 ^ 64) :
    ∃ k e, RelinearizationKey.new pr sk i aTape rng = .ok k ∧ (∀ j, sampleVecCbd pr (rng j) N variance = .ok (e j)) ∧
      ∀ (pr' : Profile) (f : Rg N) (q : Poly), PolyAt P i f q ∨ PowerAt P i f q → ∃ p0 p1, ∃ r0 r1 : Rg N,
        k.relinearizePoly pr' q = .ok (p0, p1) ∧ PolyAt P i r0 p0 ∧ PolyAt P i r1 p1 ∧
        Cong (levelQ l i) (r0 + r1 * keyRing N sk) (f * keyRing N sk ^ 2 + switchError l i f e) := by
  obtain ⟨p, hp⟩ := c33_exists_poly h hi (keyRing N sk ^ 2)
  obtain ⟨k, e, h1, h2, h3⟩ := c77_key_switch h hk pr hv1 hv2 hp ha hr
  obtain ⟨K, ext, rfl, hw, rfl, rfl, rfl⟩ := BfvP.params h
  obtain ⟨L, hL⟩ := hw.levels i hi
  have hsk := BfvP.key hw hk
  have hP := hk.1
  subst hP
  have hc := hL.wf.ctx
  rw [(BfvP.polyAt_iff hL _ _).mp hp, pow_two] at h1
  refine ⟨⟨k, sk.params⟩, e, ?_, h2, fun pr' f q hq => ?_⟩
  · unfold RelinearizationKey.new
    rw [idx_of hL.q, res_ok_bind, SecretKey.polyNtt_enc hsk pr hc, res_ok_bind, mul_enc hc, res_ok_bind,
      show sk.ring K * sk.ring K = keyRing (2 ^ K) sk * keyRing (2 ^ K) sk from rfl, h1, res_ok_bind]
  · obtain ⟨p0, p1, r0, r1, y1, y2⟩ := h3 pr' f _ ((BfvP.powerAt_iff hL _ _).mpr rfl)
    refine ⟨p0, p1, r0, r1, ?_, y2⟩
    unfold RelinearizationKey.relinearizePoly
    rcases hq with hq | hq
    · rw [(BfvP.polyAt_iff hL _ _).mp hq, if_pos (show (enc L.qCtx .ntt f).representation = .ntt from rfl), toPower_enc hc, res_ok_bind, y1]
    · rw [(BfvP.powerAt_iff hL _ _).mp hq, if_neg (show (enc L.qCtx .powerBasis f).representation ≠ .ntt by simp [enc]), y1]

/-- C77: the exact error of the external product. -/
theorem c77_external_product (h : IsParams N t l variance P) {sk : SecretKey} (hk : IsKey P sk) (pr : Profile) (hv1 : 1 ≤ variance)
    (hv2 : variance ≤ 16) {i : Nat} {m : Rg N} {p : Poly} (hp : PolyAt P i m p) {a0 a1 : Nat → Nat → Nat → Nat}
    (ha0 : ∀ j, TapeAt l i (a0 j)) (ha1 : ∀ j, TapeAt l i (a1 j)) {r0 r1 : Nat → Nat → Nat} (hr0 : ∀ j i, r0 j i < 2 ^ 64)
    (hr1 : ∀ j i, r1 j i < 2 ^ 64) :
    ∃ g e0 e1, RgswCt.encryptPoly pr sk p a0 a1 r0 r1 = .ok g ∧ (∀ j, sampleVecCbd pr (r0 j) N variance = .ok (e0 j)) ∧
      (∀ j, sampleVecCbd pr (r1 j) N variance = .ok (e1 j)) ∧
      ∀ (pr' : Profile) (ct : BfvCipherText) (f0 f1 : Rg N), IsCt P i [f0, f1] ct → ∃ p0 p1, ∃ z0 z1 : Rg N,
        g.externalProduct pr' ct = .ok (p0, p1) ∧ IsCt P i [z0, z1] ⟨P, [p0, p1], i⟩ ∧
        Cong (levelQ l i) (phase (keyRing N sk) [z0, z1])
          (m * phase (keyRing N sk) [f0, f1] + (switchError l i f1 e0 + switchError l i f0 e1)) := by
  have hi : i < l.length := by
    obtain ⟨K, ext, rfl, hw, rfl, rfl, rfl⟩ := BfvP.params h
    exact BfvP.level_lt hw hp
  obtain ⟨q, hq⟩ := c33_exists_poly h hi (keyRing N sk * m)
  obtain ⟨k0, e0, h1, h2, h3⟩ := c77_key_switch h hk pr hv1 hv2 hq ha0 hr0
  obtain ⟨k1, e1, g1, g2, g3⟩ := c77_key_switch h hk pr hv1 hv2 hp ha1 hr1
  obtain ⟨K, ext, rfl, hw, rfl, rfl, rfl⟩ := BfvP.params h
  obtain ⟨L, hL⟩ := hw.levels i hi
  have hsk := BfvP.key hw hk
  have hP := hk.1
  subst hP
  have hc := hL.wf.ctx
  rw [(BfvP.polyAt_iff hL _ _).mp hq] at h1
  rw [(BfvP.polyAt_iff hL _ _).mp hp] at g1 ⊢
  refine ⟨⟨k0, k1⟩, e0, e1, ?_, h2, g2, fun pr' ct f0 f1 hct => ?_⟩
  · unfold RgswCt.encryptPoly
    rw [rassert_ok (show (enc L.qCtx .ntt m).representation = .ntt from rfl), res_ok_bind, show (enc L.qCtx .ntt m).context = L.qCtx from rfl,
      BfvParameters.ctxLevel_at hw hL, show unwrapR (some i) = .ok i from rfl, res_ok_bind, SecretKey.polyNtt_enc hsk pr hc, res_ok_bind,
      mul_enc hc, res_ok_bind, show sk.ring K * m = keyRing (2 ^ K) sk * m from rfl, h1, res_ok_bind, g1, res_ok_bind]
  · obtain ⟨x1, x2, x3⟩ := (BfvP.isCt_iff hL _ _).mp hct
    obtain ⟨u0, u1, w0, w1, y1, y2, y3, y4⟩ := h3 pr' f1 _ ((BfvP.powerAt_iff hL _ _).mpr rfl)
    obtain ⟨v0, v1, t0, t1, z1, z2, z3, z4⟩ := g3 pr' f0 _ ((BfvP.powerAt_iff hL _ _).mpr rfl)
    rw [(BfvP.polyAt_iff hL _ _).mp y2, (BfvP.polyAt_iff hL _ _).mp y3] at y1
    rw [(BfvP.polyAt_iff hL _ _).mp z2, (BfvP.polyAt_iff hL _ _).mp z3] at z1
    refine ⟨enc L.qCtx .ntt (t0 + w0), enc L.qCtx .ntt (t1 + w1), t0 + w0, t1 + w1, ?_, (BfvP.isCt_iff hL _ _).mpr ⟨rfl, rfl, rfl⟩, ?_⟩
    · unfold RgswCt.externalProduct
      rw [x3]
      simp only [List.map_cons, List.map_nil, show ∀ a b : Poly, idx [a, b] 0 = .ok a from fun _ _ => rfl,
        show ∀ a b : Poly, idx [a, b] 1 = .ok b from fun _ _ => rfl, res_ok_bind, toPower_enc hc, y1, z1, add_enc hc]
    · rw [BfvP.phase_two, BfvP.phase_two]
      refine (dvd_add y4 z4).trans (dvd_of_eq ?_)
      ring

theorem Rlwe.digit_bdd (hN : 0 < N) {i j : Nat} (hq : 0 < (levelModuli l i).getD j 1) (f : Rg N) :
    Bdd ((levelModuli l i).getD j 1) (digitRing l i j f) := by
  intro k hk
  unfold digitRing
  rw [cf_ofCoeffs hN _ hk]
  have hz : (0 : ℤ) < ((levelModuli l i).getD j 1 : Nat) := by exact_mod_cast hq
  rw [abs_of_nonneg (Int.emod_nonneg _ hz.ne')]
  exact (Int.emod_lt_of_pos _ hz).le

/-- C77: the worst case of the error of a key switch. -/
theorem c77_error_bound (hN : 0 < N) (hq : ∀ q ∈ l, 0 < q) {i : Nat} (f : Rg N) {e : Nat → List Int} {B : Nat} (he : ∀ j, ∀ x ∈ e j, |x| ≤ B) :
    Bdd (switchNoise N l i * B) (switchError l i f e) := by
  have hsm : ∀ j, Bdd (B : ℤ) (smallRing N (e j)) := by
    intro j k hk
    unfold smallRing
    rw [cf_ofCoeffs hN _ hk]
    rcases Nat.lt_or_ge k (e j).length with h1 | h1
    · rw [getD_eq_getElem' _ _ _ h1]; exact he j _ (List.getElem_mem h1)
    · rw [List.getD_eq_default _ _ h1]; simp
  have h1 := Bdd.sum hN (Finset.range (levelModuli l i).length) (A := fun j => (N : ℤ) * (levelModuli l i).getD j 1 * B)
    (f := fun j => digitRing l i j f * smallRing N (e j)) (fun j hj => by
      have hj' := Finset.mem_range.mp hj
      refine Bdd.mul hN (Rlwe.digit_bdd hN ?_ f) (hsm j)
      rw [getD_eq_getElem' _ _ _ hj']
      exact hq _ (List.mem_of_mem_take (List.getElem_mem hj')))
  refine h1.mono (le_of_eq ?_)
  rw [← Finset.sum_mul, ← Finset.mul_sum, ← Nat.cast_sum, Ksk.sum_getD]
  rfl

/-- An actual encryption and an actual key at level 1, for the example parameters. -/
example : ∃ (P : BfvParameters) (sk : SecretKey) (a M : Rg 8) (e : List Int) (ct : BfvCipherText) (k : Ksk) (b : Nat → Rg 8)
    (e' : Nat → List Int), IsParams 8 17 Ex.mods 10 P ∧ IsKey P sk ∧ IsMask P 0 (fun _ _ => 0) a ∧
    sk.encrypt .debug ⟨P, 0, .poly, [3, 1, 16]⟩ (fun _ _ => 0) (fun i => i % 1000) = .ok ct ∧
    IsCt P 0 [smallRing 8 e - a * keyRing 8 sk + M, a] ct ∧ RlweKsk P Ex.mods 1 (keyRing 8 sk) (msgRing 8 [3, 1]) b e' k := by
  obtain ⟨P, sk, h, hk, -⟩ := Ex.setup_key
  obtain ⟨a, ha⟩ := (c77_mask h (i := 0) (by decide) (Ex.tapes 0)).1
  obtain ⟨b, hb⟩ := (c77_mask h (i := 1) (by decide) (Ex.tapes 0)).1
  obtain ⟨p, hp⟩ := c33_exists_poly h (i := 1) (by decide) (msgRing 8 [3, 1])
  obtain ⟨M, -, hM⟩ := c77_encrypt h hk .debug (by norm_num) (by norm_num) (pt := ⟨P, 0, .poly, [3, 1, 16]⟩) rfl rfl
    (show ([3, 1, 16] : List Nat).length ≤ 8 by decide) (show ∀ x ∈ [3, 1, 16], x < 2 ^ 64 by decide)
  obtain ⟨e, ct, -, h1, h2⟩ := hM _ _ Ex.wordTape a ha
  obtain ⟨k, e', -, -, h3⟩ := c77_ksk h hk .debug (by norm_num) (by norm_num) hp (fun _ => hb) (fun _ => Ex.wordTape)
  exact ⟨P, sk, a, M, e, ct, k, _, e', h, hk, ha, h1, h2, h3⟩

/-- `c77_mask_uniform` and `c77_encrypt_uniform` on actual parameters. -/
example : ∃ P sk, IsParams 8 17 Ex.mods 10 P ∧ IsKey P sk ∧ (∃! r : Rows 8 Ex.mods 1, IsMask P 1 r.tape (msgRing 8 [5, 6])) ∧
    ∃ M : Rg 8, ∃ e, sampleVecCbd .debug (fun i => i % 1000) 8 10 = .ok e ∧ ∀ c0 c1 : Rg 8,
      Cong (levelQ Ex.mods 0) (phase (keyRing 8 sk) [c0, c1]) (M + smallRing 8 e) →
        ∃! r : Rows 8 Ex.mods 0, ∃ ct, sk.encrypt .debug ⟨P, 0, .poly, [3, 4]⟩ r.tape (fun i => i % 1000) = .ok ct ∧ IsCt P 0 [c0, c1] ct := by
  obtain ⟨P, sk, h, hk, -⟩ := Ex.setup_key
  obtain ⟨M, hM⟩ := c77_encrypt_uniform h hk .debug (by norm_num) (by norm_num) (pt := ⟨P, 0, .poly, [3, 4]⟩) rfl rfl (by norm_num)
    (show ∀ x ∈ [3, 4], x < 2 ^ 64 by decide)
  obtain ⟨e, h1, h2⟩ := hM _ Ex.wordTape
  exact ⟨P, sk, h, hk, c77_mask_uniform h (by decide) _, M, e, h1, fun c0 c1 h3 => (h2 c0 c1).1 h3⟩

/-- The other theorems of C77 with actual keys. -/
example : ∃ P sk p c k sub g rlk G, IsParams 8 17 Ex.mods 10 P ∧ IsKey P sk ∧ PolyAt P 0 (msgRing 8 [1, 2] : Rg 8) p ∧ P.qCtxs[0]? = some c ∧
    Ksk.new .debug sk p 0 0 (fun _ _ _ => 0) (fun _ i => i % 1000) = .ok k ∧
    Substitution.new .debug c 9 = .ok sub ∧ GaliosKey.new .debug sk sub 0 (fun _ _ _ => 0) (fun _ i => i % 1000) = .ok g ∧
    RelinearizationKey.new .debug sk 0 (fun _ _ _ => 0) (fun _ i => i % 1000) = .ok rlk ∧
    RgswCt.encryptPoly .debug sk p (fun _ _ _ => 0) (fun _ _ _ => 0) (fun _ i => i % 1000) (fun _ i => i % 1000) = .ok G := by
  obtain ⟨P, sk, h, hk, -⟩ := Ex.setup_key
  obtain ⟨p, hp⟩ := c33_exists_poly h (i := 0) (by decide) (msgRing 8 [1, 2] : Rg 8)
  obtain ⟨c, hc, -⟩ := id hp
  obtain ⟨k, -, h1, -⟩ := c77_key_switch h hk .debug (by norm_num) (by norm_num) hp Ex.tapes (fun _ => Ex.wordTape)
  obtain ⟨sub, g, -, h2, h3, -⟩ := c77_galois h hk .debug (by norm_num) (by norm_num) (by decide) (by norm_num) hc (x := 9) (by decide) Ex.tapes (fun _ => Ex.wordTape)
  obtain ⟨rlk, -, h4, -⟩ := c77_relinearize h hk .debug (by norm_num) (by norm_num) (i := 0) (by decide) Ex.tapes (fun _ => Ex.wordTape)
  obtain ⟨G, -, -, h5, -⟩ := c77_external_product h hk .debug (by norm_num) (by norm_num) hp Ex.tapes Ex.tapes (fun _ => Ex.wordTape) (fun _ => Ex.wordTape)
  exact ⟨P, sk, p, c, k, sub, g, rlk, G, h, hk, hp, hc, h1, h2, h3, h4, h5⟩

/-- Errors of at most 20 in three rows. -/
example : Bdd (switchNoise 8 Ex.mods 0 * (20 : Nat)) (switchError Ex.mods 0 (msgRing 8 [123456789, 5] : Rg 8) fun j => [20, -20, (j : Int) % 20]) :=
  c77_error_bound (by norm_num) (fun q hq => by have := Ex.mods_gt q hq; omega) _ fun j x hx => by
    simp only [List.mem_cons, List.not_mem_nil, or_false] at hx
    rcases hx with rfl | rfl | rfl <;> rw [abs_le] <;> omega

end OnionPIR
