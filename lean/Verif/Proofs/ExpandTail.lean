import Verif.Props.NoiseTail
import Verif.Props.Unpack
/- The errors of the oblivious expansion as a linear function of the sampled errors of its keys. -/
namespace OnionPIR.ExpandTail
open Rg Poly Spec Sampling Evaluation

variable {K t : Nat} {l : List Nat} {variance : Nat} {P : BfvParameters}

/-- A Galois key whose switch has the second polynomial `R f1` and exactly the error of the samples `e`. -/
def Exact (P : BfvParameters) (l : List Nat) (s : Rg (2 ^ K)) (x : Nat) (R : Rg (2 ^ K) → Rg (2 ^ K)) (e : Nat → List Int) (g : GaliosKey) : Prop :=
  ∀ (pr' : Profile) (ct : BfvCipherText) (f0 f1 : Rg (2 ^ K)), IsCt P 0 [f0, f1] ct → ∃ ct', ∃ r0 : Rg (2 ^ K), g.relinearize pr' ct = .ok ct' ∧
    IsCt P 0 [r0, R f1] ct' ∧ Cong (levelQ l 0) (phase s [r0, R f1]) (sg x (phase s [f0, f1]) + switchError l 0 (sg x f1) e)

/-- The second polynomial of a switch depends on the masks of the key and not on its errors. -/
theorem galois (h : IsParams (2 ^ K) t l variance P) {sk : SecretKey} (hk : IsKey P sk) (hv1 : 1 ≤ variance) (hv2 : variance ≤ 16)
    (hl : l.length ≠ 1) (hK : K ≤ 31) {c : RqContext} (hi : P.qCtxs[0]? = some c) {x : Nat} (hx : Odd x)
    {aTape : Nat → Nat → Nat → Nat} (ha : ∀ j, TapeAt l 0 (aTape j)) :
    ∃ R : Rg (2 ^ K) → Rg (2 ^ K), ∀ (pr : Profile) (rng : Nat → Nat → Nat), (∀ j i, rng j i < 2 ^ 64) →
      ∃ sub g, Substitution.new pr c x = .ok sub ∧ GaliosKey.new pr sk sub 0 aTape rng = .ok g ∧
        Exact P l (keyRing (2 ^ K) sk) x R (fun j => (List.range (2 ^ K)).map (cbdValue (rng j) variance)) g := by
  obtain ⟨ext, L, hw, hL, rfl, rfl, rfl⟩ := level_zero h
  have hpos : 0 < 2 ^ K := by positivity
  rw [hL.q] at hi
  cases hi
  have hsk := BfvP.key hw hk
  have hP := hk.1
  subst hP
  have hc := hL.wf.ctx
  choose a ha' using fun j => random_enc hc (BfvP.tape hL (ha j))
  refine ⟨fun f1 => ∑ j ∈ Finset.range L.qCtx.moduli64.length, Ksk.digit L.qCtx (sg x f1) j * a j, fun pr rng hr => ?_⟩
  obtain ⟨sub, hs⟩ : ∃ sub, Substitution.new pr L.qCtx x = .ok sub := ⟨_, Poly.substitution_new_ok hc pr hK hx⟩
  have hnew := Ksk.new_exact hsk pr hL hv1 hv2 (sg x (keyRing (2 ^ K) sk)) ha' hr
  set e : Nat → List Int := fun j => (List.range (2 ^ K)).map (cbdValue (rng j) sk.params.variance)
  obtain ⟨b, hb⟩ : ∃ b : Nat → Rg (2 ^ K), b = fun j => ofList K (e j) - a j * sk.ring K +
      sg x (keyRing (2 ^ K) sk) * ((Ksk.garnerAt L.qCtx j : ℤ) : Rg (2 ^ K)) := ⟨_, rfl⟩
  have hid : ∀ j, b j + a j * sk.ring K = sg x (keyRing (2 ^ K) sk) * ((Ksk.garnerAt L.qCtx j : ℤ) : Rg (2 ^ K)) + ofList K (e j) := fun j => by
    rw [hb]; ring
  obtain ⟨k, hkk⟩ : ∃ k : Ksk, k = ⟨sk.params, (List.range L.qCtx.moduli64.length).map fun j => enc L.qCtx .ntt (b j),
    (List.range L.qCtx.moduli64.length).map fun j => enc L.qCtx .ntt (a j), L.qCtx, L.qCtx⟩ := ⟨_, rfl⟩
  have hnew' : Ksk.new pr sk (enc L.qCtx .ntt (sg x (keyRing (2 ^ K) sk))) 0 0 aTape rng = .ok k := by rw [hnew, hkk, hb]
  refine ⟨sub, ⟨k, sub, 0⟩, hs, ?_, fun pr' ct f0 f1 hct => ?_⟩
  · unfold GaliosKey.new
    rw [rassert_ok hl, res_ok_bind, idx_of hL.q, res_ok_bind, tryFromVecI64_ok hc pr hsk.len hsk.bound, res_ok_bind,
      substitute_enc hc pr hK hx hs, res_ok_bind, toNtt_enc hc, res_ok_bind, show sg x (ofList K sk.coeffs) = sg x (keyRing (2 ^ K) sk) from rfl,
      hnew', res_ok_bind]
  · obtain ⟨x1, x2, x3⟩ := (BfvP.isCt_iff hL _ _).mp hct
    have hsw := Ksk.switch_exact hc hid (sg x f1)
    have hks := Ksk.keySwitch_enc (K := K) (s := sk.ring K) (src := sg x (keyRing (2 ^ K) sk)) (B := 2 * sk.params.variance) hc pr'
      (k := k) (a := a) (b := b)
      (by
        rw [hkk]
        exact ⟨rfl, rfl, rfl, rfl, fun j _ => ⟨ofList K (e j), ofList_bdd (by positivity) (fun x hx => by
          obtain ⟨i, -, rfl⟩ := List.mem_map.mp hx
          exact abs_le.mpr (cbdValue_bound _ _ i)), by rw [hid, sub_self]; exact dvd_zero _⟩⟩) (sg x f1)
    refine ⟨⟨ct.params, [enc L.qCtx .ntt (∑ j ∈ Finset.range L.qCtx.moduli64.length, Ksk.digit L.qCtx (sg x f1) j * b j + sg x f0),
      enc L.qCtx .ntt (∑ j ∈ Finset.range L.qCtx.moduli64.length, Ksk.digit L.qCtx (sg x f1) j * a j)], 0⟩, _, ?_,
      (BfvP.isCt_iff hL _ _).mpr ⟨x1, rfl, rfl⟩, ?_⟩
    · unfold GaliosKey.relinearize
      rw [rassert_ok x2, res_ok_bind, x3]
      simp only [List.map_cons, List.map_nil, show ∀ a b : Poly, idx [a, b] 0 = .ok a from fun _ _ => rfl,
        show ∀ a b : Poly, idx [a, b] 1 = .ok b from fun _ _ => rfl,
        res_ok_bind, substitute_enc hc pr' hK hx hs, toPower_enc hc, hks, add_enc hc, dassert_ok (show (enc L.qCtx .ntt f0).representation = .ntt from rfl)]
    · rw [BfvP.phase_two, BfvP.phase_two, sg_add hpos, sg_mul hpos hx]
      unfold Cong
      rw [← BfvP.levelQ_eq hL]
      refine hsw.trans (dvd_of_eq ?_)
      have he : switchError sk.params.ciphertextModuli 0 (sg x f1) e =
          ∑ j ∈ Finset.range L.qCtx.moduli64.length, Ksk.digit L.qCtx (sg x f1) j * ofList K (e j) := by
        unfold switchError
        rw [← BfvP.len_level hL]
        apply Finset.sum_congr rfl
        intro j _
        unfold Ksk.digit digitRing Ksk.modAt levelModuli
        rw [hL.wf.mods]
        rfl
      rw [he, BfvP.keyRing_eq]
      ring

/-! ### The loops, with the masks and the errors as functions -/

/-- What an entry of the working array is at stage `i`: the second polynomial is `M j` and the error is exactly `E j`. -/
def Entry (P : BfvParameters) (l : List Nat) (s phi : Rg (2 ^ K)) (i : Nat) (M E : Nat → Rg (2 ^ K)) (j : Nat) (ct : BfvCipherText) : Prop :=
  ∃ f0 : Rg (2 ^ K), IsCt P 0 [f0, M j] ct ∧ Cong (levelQ l 0) (phase s [f0, M j]) (tr K i j phi + E j)

/-- The second polynomials of the next stage. -/
noncomputable def nextM (i : Nat) (R : Rg (2 ^ K) → Rg (2 ^ K)) (M : Nat → Rg (2 ^ K)) (j : Nat) : Rg (2 ^ K) :=
  if j < 2 ^ i then M j + R (M j) else (M (j - 2 ^ i) - R (M (j - 2 ^ i))) * -(xx ^ (2 ^ K - 2 ^ i))

/-- The errors of the next stage; `D j` is the error of the switch of the entry `j`. -/
noncomputable def nextE (i : Nat) (E D : Nat → Rg (2 ^ K)) (j : Nat) : Rg (2 ^ K) :=
  if j < 2 ^ i then E j + (sg (2 ^ (K - i) + 1) (E j) + D j)
  else (E (j - 2 ^ i) - (sg (2 ^ (K - i) + 1) (E (j - 2 ^ i)) + D (j - 2 ^ i))) * -(xx ^ (2 ^ K - 2 ^ i))

theorem step (h : IsParams (2 ^ K) t l variance P) (pr : Profile) {s : Rg (2 ^ K)} {ev : Evaluation} {xPows : List Poly}
    {i : Nat} (hi : i < K) {g : GaliosKey} (hg : ev.gk.lookup (2 ^ (K - i) + 1) = some g) {R : Rg (2 ^ K) → Rg (2 ^ K)} {e : Nat → List Int}
    (hgal : Exact P l s (2 ^ (K - i) + 1) R e g)
    {xp : Poly} (hx : xPows[i]? = some xp) (hxp : PowerAt P 0 (-(xx ^ (2 ^ K - 2 ^ i)) : Rg (2 ^ K)) xp) {phi : Rg (2 ^ K)}
    {M E : Nat → Rg (2 ^ K)} {bits : List BfvCipherText} {j : Nat} (hj0 : j < 2 ^ i) (hj : j + 2 ^ i < bits.length) {ct : BfvCipherText}
    (hct : bits[j]? = some ct) (hgood : Entry P l s phi i M E j ct) :
    ∃ ce co, unpackStep pr ev xPows (2 ^ (K - i) + 1) i bits j = .ok ((bits.set j ce).set (j + 2 ^ i) co) ∧
      Entry P l s phi (i + 1) (nextM i R M) (nextE i E fun j => switchError l 0 (sg (2 ^ (K - i) + 1) (M j)) e) j ce ∧
      Entry P l s phi (i + 1) (nextM i R M) (nextE i E fun j => switchError l 0 (sg (2 ^ (K - i) + 1) (M j)) e) (j + 2 ^ i) co := by
  have hN : 0 < 2 ^ K := by positivity
  obtain ⟨f0, h1, h3⟩ := hgood
  obtain ⟨cr, r0, g1, g2, g4⟩ := hgal pr ct f0 (M j) h1
  obtain ⟨ce, e1, e2, e3, -⟩ := c32_add h pr h1 g2 s
  obtain ⟨co, o1, o2, o3, -⟩ := c32_sub h pr h1 g2 s
  have ho := odd_exp hi
  obtain ⟨ext, L, hw, hL, -, rfl, -⟩ := level_zero h
  have hr : Cong (levelQ P.ciphertextModuli 0) (phase s [r0, R (M j)])
      (sg (2 ^ (K - i) + 1) (tr K i j phi) + (sg (2 ^ (K - i) + 1) (E j) + switchError P.ciphertextModuli 0 (sg (2 ^ (K - i) + 1) (M j)) e)) := by
    refine cong_trans g4 ?_
    rw [← add_assoc, ← sg_add hN]
    exact cong_add (cong_sg hN ho h3) (cong_refl _)
  have hlt : ¬ j + 2 ^ i < 2 ^ i := by omega
  obtain ⟨m, hm⟩ : ∃ m : Rg (2 ^ K), m = -(xx ^ (2 ^ K - 2 ^ i)) := ⟨_, rfl⟩
  rw [← hm] at hxp
  rw [(BfvP.powerAt_iff hL _ _).mp hxp] at hx
  obtain ⟨o21, o22, o23⟩ := (BfvP.isCt_iff hL _ _).mp o2
  refine ⟨ce, { co with cts := [enc L.qCtx .ntt ((f0 - r0) * m), enc L.qCtx .ntt ((M j - R (M j)) * m)] }, ?_, ?_, ?_⟩
  · unfold unpackStep
    rw [idx_of hct, res_ok_bind, hg]
    simp only [unwrapR, res_ok_bind, g1, e1, o1, idx_of hx, Poly.toNtt_enc hL.wf.ctx pr, o23, List.map_cons, List.map_nil,
      show ∀ a b : Poly, idx [a, b] 0 = .ok a from fun _ _ => rfl, show ∀ a b : Poly, idx [a, b] 1 = .ok b from fun _ _ => rfl,
      Poly.mul_enc hL.wf.ctx pr]
    rw [setR_ok (lt_of_le_of_lt (Nat.le_add_right _ _) hj), res_ok_bind, setR_ok (by rw [List.length_set]; exact hj)]
  · unfold Entry
    simp only [nextM, nextE, if_pos hj0]
    refine ⟨_, e2, ?_⟩
    rw [e3, ← tr_even hi j phi]
    have := cong_add h3 hr
    rwa [add_add_add_comm] at this
  · unfold Entry
    simp only [nextM, nextE, if_neg hlt, Nat.add_sub_cancel, ← hm]
    refine ⟨(f0 - r0) * m, (BfvP.isCt_iff hL _ _).mpr ⟨o21, o22, rfl⟩, ?_⟩
    have h4 := cong_mul (cong_sub h3 hr) m
    rw [← o3, add_sub_add_comm, tr_odd hi j phi, add_mul,
      show xx ^ 2 ^ i * tr K (i + 1) (j + 2 ^ i) phi * m = (xx ^ 2 ^ i * m) * tr K (i + 1) (j + 2 ^ i) phi by ring, 
      show xx ^ 2 ^ i * m = 1 by rw [hm, xx_inv hi], one_mul] at h4
    simp only [BfvP.phase_two] at h4 ⊢
    rwa [show (f0 - r0) * m + (M j - R (M j)) * m * s = (f0 - r0 + (M j - R (M j)) * s) * m by ring]

/-- The loop of a stage, for any meaning of the entries. -/
theorem stage {pr : Profile} {ev : Evaluation} {xPows : List Poly} (hK : K ≤ 62) {i : Nat} (hi : i < K) {G G' : Nat → BfvCipherText → Prop}
    (hstep : ∀ (bits : List BfvCipherText) j ct, j < 2 ^ i → j + 2 ^ i < bits.length → bits[j]? = some ct → G j ct →
      ∃ ce co, unpackStep pr ev xPows (2 ^ (K - i) + 1) i bits j = .ok ((bits.set j ce).set (j + 2 ^ i) co) ∧ G' j ce ∧ G' (j + 2 ^ i) co)
    {bits : List BfvCipherText} (hlen : bits.length = 2 ^ K) (hb : ∀ j, j < 2 ^ i → ∃ ct, bits[j]? = some ct ∧ G j ct) :
    ∃ bits', unpackStage pr ev xPows (2 ^ K) bits i = .ok bits' ∧ bits'.length = 2 ^ K ∧
      ∀ j, j < 2 ^ (i + 1) → ∃ ct, bits'[j]? = some ct ∧ G' j ct := by
  have hlt : 2 ^ i < 2 ^ K := Nat.pow_lt_pow_right (by norm_num) hi
  have hdiv : 2 ^ K / 2 ^ i = 2 ^ (K - i) := Nat.pow_div hi.le (by norm_num)
  unfold unpackStage
  have hle : 2 ^ (K - i) ≤ 2 ^ 62 := Nat.pow_le_pow_right (by norm_num) (by omega)
  rw [divR_ok (by positivity), res_ok_bind, hdiv, addW_ok (by omega), res_ok_bind]
  obtain ⟨r, hr, h1, h2, h3, h4⟩ := foldR_range_ok (f := unpackStep pr ev xPows (2 ^ (K - i) + 1) i) (n := 2 ^ i)
    (Inv := fun n (b : List BfvCipherText) => b.length = 2 ^ K ∧
      (∀ j, j < n → ∃ ct, b[j]? = some ct ∧ G' j ct) ∧
      (∀ j, n ≤ j → j < 2 ^ i → ∃ ct, b[j]? = some ct ∧ G j ct) ∧
      (∀ j, j < n → ∃ ct, b[j + 2 ^ i]? = some ct ∧ G' (j + 2 ^ i) ct)) (s := bits)
    ⟨hlen, fun j hj => absurd hj (Nat.not_lt_zero _), fun j _ hj => hb j hj, fun j hj => absurd hj (Nat.not_lt_zero _)⟩
    (by
      rintro j b hj ⟨i1, i2, i3, i4⟩
      obtain ⟨ct, hct, hgood⟩ := i3 j (le_refl _) hj
      have hpow2 : 2 ^ i + 2 ^ i ≤ 2 ^ K := by rw [← two_mul, ← pow_succ']; exact Nat.pow_le_pow_right (by norm_num) hi
      obtain ⟨ce, co, s1, s2, s3⟩ := hstep b j ct hj (by omega) hct hgood
      refine ⟨_, s1, by rw [List.length_set, List.length_set, i1], fun k hk => ?_, fun k hk hk' => ?_, fun k hk => ?_⟩
      · rw [List.getElem?_set_ne (by omega)]
        rcases Nat.lt_succ_iff_lt_or_eq.mp hk with hk | rfl
        · rw [List.getElem?_set_ne (by omega)]; exact i2 k hk
        · rw [List.getElem?_set_self (by omega)]; exact ⟨ce, rfl, s2⟩
      · rw [List.getElem?_set_ne (by omega), List.getElem?_set_ne (by omega)]; exact i3 k (by omega) hk'
      · rcases Nat.lt_succ_iff_lt_or_eq.mp hk with hk | rfl
        · rw [List.getElem?_set_ne (by omega), List.getElem?_set_ne (by omega)]; exact i4 k hk
        · rw [List.getElem?_set_self (by rw [List.length_set]; omega)]; exact ⟨co, rfl, s3⟩)
  refine ⟨r, hr, h1, fun j hj => ?_⟩
  rw [pow_succ] at hj
  by_cases hj' : j < 2 ^ i
  · exact h2 j hj'
  · have := h4 (j - 2 ^ i) (by omega)
    rwa [Nat.sub_add_cancel (by omega)] at this

/-- The second polynomials of stage `i`, from the first one and the masks of the keys. -/
noncomputable def masks (R : Nat → Rg (2 ^ K) → Rg (2 ^ K)) (f1 : Rg (2 ^ K)) : Nat → Nat → Rg (2 ^ K)
  | 0 => fun _ => f1
  | i + 1 => nextM i (R i) (masks R f1 i)

/-- The errors of stage `i`, from the samples `e i` of the keys. -/
noncomputable def errors (l : List Nat) (R : Nat → Rg (2 ^ K) → Rg (2 ^ K)) (f1 : Rg (2 ^ K)) (e : Nat → Nat → List Int) : Nat → Nat → Rg (2 ^ K)
  | 0 => fun _ => 0
  | i + 1 => nextE i (errors l R f1 e i) fun j => switchError l 0 (sg (2 ^ (K - i) + 1) (masks R f1 i j)) (e i)

theorem stages (h : IsParams (2 ^ K) t l variance P) (hK : K ≤ 62) (pr : Profile) {s : Rg (2 ^ K)} {ev : Evaluation}
    {R : Nat → Rg (2 ^ K) → Rg (2 ^ K)} {e : Nat → Nat → List Int}
    (hev : ∀ i, i < K → ∃ g, ev.gk.lookup (2 ^ (K - i) + 1) = some g ∧ Exact P l s (2 ^ (K - i) + 1) (R i) (e i) g)
    {xPows : List Poly} (hx : IsMonomials (2 ^ K) P xPows) {f0 f1 : Rg (2 ^ K)} {ct : BfvCipherText}
    (hct : IsCt P 0 [f0, f1] ct) :
    ∃ bits, foldR (unpackStage pr ev xPows (2 ^ K)) (List.replicate (2 ^ K) ct) (List.range K) = .ok bits ∧ bits.length = 2 ^ K ∧
      ∀ j, j < 2 ^ K → ∃ c, bits[j]? = some c ∧ Entry P l s (phase s [f0, f1]) K (masks R f1 K) (errors l R f1 e K) j c := by
  have hN : 0 < 2 ^ K := by positivity
  obtain ⟨r, hr, h1, h2⟩ := foldR_range_ok (f := unpackStage pr ev xPows (2 ^ K)) (n := K)
    (Inv := fun i (b : List BfvCipherText) => b.length = 2 ^ K ∧
      ∀ j, j < 2 ^ i → ∃ c, b[j]? = some c ∧ Entry P l s (phase s [f0, f1]) i (masks R f1 i) (errors l R f1 e i) j c)
    (s := List.replicate (2 ^ K) ct)
    ⟨List.length_replicate, fun j hj => by
      have hj : j = 0 := by simpa using hj
      subst hj
      refine ⟨ct, by rw [List.getElem?_replicate, if_pos hN], f0, hct, ?_⟩
      rw [tr_zero]
      show Cong _ _ (_ + 0)
      rw [add_zero]; exact cong_refl _⟩
    (by
      rintro i b hi ⟨h1, h2⟩
      have hlt : 2 ^ i < 2 ^ K := Nat.pow_lt_pow_right (by norm_num) hi
      obtain ⟨g, hg, hgal⟩ := hev i hi
      obtain ⟨xp, hxp, hpow⟩ := hx i hlt
      exact stage hK hi (fun bits j ct hj0 hj hb hg' => step h pr hi hg hgal hxp hpow hj0 hj hb hg') h1 h2)
  exact ⟨r, hr, h1, h2⟩

/-! ### Linearity in the samples -/

/-- `E` is a linear function of the samples of `R` rows of words, the coefficients of the weights of row `r` bounded by `b r`. -/
def Lin (N v R W : Nat) (b : Nat → ℤ) (E : (Fin R → Fin W → Fin (2 ^ 64)) → Rg N) : Prop :=
  ∃ c : Nat → Nat → Rg N, (∀ r m, Bdd (b r) (c r m)) ∧
    ∀ w, E w = ∑ r ∈ Finset.range R, ∑ m ∈ Finset.range N, ((cbdValue (streams w r) v m : ℤ) : Rg N) * c r m

variable {N v R W : Nat} {b b' : Nat → ℤ} {E E' : (Fin R → Fin W → Fin (2 ^ 64)) → Rg N}

theorem Lin.zero (hN : 0 < N) (hb : ∀ r, 0 ≤ b r) : Lin N v R W b fun _ => 0 :=
  ⟨fun _ _ => 0, fun r _ => (Bdd.zero hN).mono (hb r), fun w => by simp⟩

theorem Lin.add (hN : 0 < N) (h : Lin N v R W b E) (h' : Lin N v R W b' E') : Lin N v R W (fun r => b r + b' r) fun w => E w + E' w := by
  obtain ⟨c, h1, h2⟩ := h
  obtain ⟨c', h1', h2'⟩ := h'
  refine ⟨fun r m => c r m + c' r m, fun r m => (h1 r m).add hN (h1' r m), fun w => ?_⟩
  simp only [h2, h2', mul_add, Finset.sum_add_distrib]

theorem Lin.sub (hN : 0 < N) (h : Lin N v R W b E) (h' : Lin N v R W b' E') : Lin N v R W (fun r => b r + b' r) fun w => E w - E' w := by
  obtain ⟨c, h1, h2⟩ := h
  obtain ⟨c', h1', h2'⟩ := h'
  refine ⟨fun r m => c r m - c' r m, fun r m => (h1 r m).sub hN (h1' r m), fun w => ?_⟩
  simp only [h2, h2', mul_sub, Finset.sum_sub_distrib]

theorem Lin.mono (h : Lin N v R W b E) (hb : ∀ r, b r ≤ b' r) : Lin N v R W b' E := by
  obtain ⟨c, h1, h2⟩ := h
  exact ⟨c, fun r m => (h1 r m).mono (hb r), h2⟩

theorem Lin.monomial (hN : 0 < N) (h : Lin N v R W b E) (n : Nat) : Lin N v R W b fun w => E w * -(xx ^ n) := by
  obtain ⟨c, h1, h2⟩ := h
  refine ⟨fun r m => -(xx ^ n * c r m), fun r m => ((h1 r m).xx_pow_mul hN n).neg hN, fun w => ?_⟩
  simp only [h2, Finset.sum_mul]
  exact Finset.sum_congr rfl fun r _ => Finset.sum_congr rfl fun m _ => by ring

theorem sg_sum (hN : 0 < N) {k : Nat} (hk : Odd k) (s : Finset Nat) (f : Nat → Rg N) : sg k (∑ i ∈ s, f i) = ∑ i ∈ s, sg k (f i) := by
  classical
  induction s using Finset.induction_on with
  | empty => simpa using sg_int hN hk 0
  | insert a s ha ih => rw [Finset.sum_insert ha, Finset.sum_insert ha, sg_add hN, ih]

theorem Lin.sg (hN : 0 < N) (h : Lin N v R W b E) {k : Nat} (hk : Odd k) (hk' : Nat.Coprime k N) : Lin N v R W b fun w => Rg.sg k (E w) := by
  obtain ⟨c, h1, h2⟩ := h
  refine ⟨fun r m => Rg.sg k (c r m), fun r m => (h1 r m).sg hN hk', fun w => ?_⟩
  simp only [h2, sg_sum hN hk, sg_mul hN hk, sg_int hN hk]

/-- The modulus of row `r` of the words, `n` rows a key. -/
def rowQ (l : List Nat) (r : Nat) : Nat := (levelModuli l 0).getD (r % (levelModuli l 0).length) 1

/-- A sum over the rows of `k` keys. -/
theorem sum_rows_mul {M : Type*} [AddCommMonoid M] {n : Nat} (hn : 0 < n) (F : Nat → Nat → M) (k : Nat) :
    ∑ r ∈ Finset.range (k * n), F (r / n) (r % n) = ∑ i ∈ Finset.range k, ∑ j ∈ Finset.range n, F i j := by
  induction k with
  | zero => simp
  | succ k ih =>
    rw [Nat.succ_mul, Finset.sum_range_add, ih, Finset.sum_range_succ]
    congr 1
    refine Finset.sum_congr rfl fun j hj => ?_
    have hj := Finset.mem_range.mp hj
    rw [mul_comm k n, Nat.mul_add_div hn, Nat.div_eq_of_lt hj, Nat.mul_add_mod, Nat.mod_eq_of_lt hj, add_zero]

/-- The samples of key `i` of the words. -/
noncomputable def samples (l : List Nat) (N v : Nat) (w : Fin R → Fin W → Fin (2 ^ 64)) (i j : Nat) : List Int :=
  (List.range N).map (cbdValue (streams w (i * (levelModuli l 0).length + j)) v)

theorem Lin.switch (hN : 0 < N) (hq : ∀ q ∈ l, 0 < q) (hn : 0 < (levelModuli l 0).length) {k i : Nat} (hi : i < k)
    (hR : R = k * (levelModuli l 0).length) (f : Rg N) :
    Lin N v R W (fun r => if r / (levelModuli l 0).length = i then (rowQ l r : ℤ) else 0)
      fun w => switchError l 0 f (samples l N v w i) := by
  set n := (levelModuli l 0).length with hnn
  refine ⟨fun r m => if r / n = i then xx ^ m * digitRing l 0 (r % n) f else 0, fun r m => ?_, fun w => ?_⟩
  · by_cases hr : r / n = i
    · simp only [if_pos hr]
      have hj' : r % n < n := Nat.mod_lt _ hn
      refine (Rlwe.digit_bdd hN ?_ f).xx_pow_mul hN m
      rw [getD_eq_getElem' _ _ _ hj']
      exact hq _ (List.mem_of_mem_take (List.getElem_mem hj'))
    · simp only [if_neg hr]
      exact Bdd.zero hN
  · have h1 : switchError l 0 f (samples l N v w i) = ∑ j ∈ Finset.range n, ∑ m ∈ Finset.range N,
        ((cbdValue (streams w (i * n + j)) v m : ℤ) : Rg N) * (xx ^ m * digitRing l 0 j f) := by
      unfold switchError
      refine Finset.sum_congr rfl fun j _ => ?_
      unfold smallRing ofCoeffs
      rw [Finset.mul_sum]
      refine Finset.sum_congr rfl fun m hm => ?_
      unfold samples
      beta_reduce
      rw [getD_eq_getElem' _ _ _ (by simpa using Finset.mem_range.mp hm), List.getElem_map, List.getElem_range]
      ring
    have h2 := sum_rows_mul hn (fun i' j => ∑ m ∈ Finset.range N, ((cbdValue (streams w (i' * n + j)) v m : ℤ) : Rg N) *
      (if i' = i then xx ^ m * digitRing l 0 j f else 0)) k
    rw [← hR] at h2
    beta_reduce
    rw [h1]
    have h3 : ∑ i' ∈ Finset.range k, ∑ j ∈ Finset.range n, ∑ m ∈ Finset.range N, ((cbdValue (streams w (i' * n + j)) v m : ℤ) : Rg N) *
      (if i' = i then xx ^ m * digitRing l 0 j f else 0) = ∑ j ∈ Finset.range n, ∑ m ∈ Finset.range N,
        ((cbdValue (streams w (i * n + j)) v m : ℤ) : Rg N) * (xx ^ m * digitRing l 0 j f) := by
      rw [Finset.sum_eq_single i]
      · exact Finset.sum_congr rfl fun j _ => Finset.sum_congr rfl fun m _ => by rw [if_pos rfl]
      · intro i' _ hne
        exact Finset.sum_eq_zero fun j _ => Finset.sum_eq_zero fun m _ => by rw [if_neg hne, mul_zero]
      · intro hni; exact absurd (Finset.mem_range.mpr hi) hni
    rw [← h3, ← h2]
    refine Finset.sum_congr rfl fun r _ => Finset.sum_congr rfl fun m _ => ?_
    rw [mul_comm (r / n) n, Nat.div_add_mod]

/-- The bound on the weights of row `r` at stage `i`. -/
def bound (l : List Nat) (i r : Nat) : ℤ :=
  if r / (levelModuli l 0).length < i then 2 ^ (i - 1 - r / (levelModuli l 0).length) * (rowQ l r : ℤ) else 0

theorem bound_succ (l : List Nat) (i r : Nat) :
    bound l i r + (bound l i r + if r / (levelModuli l 0).length = i then (rowQ l r : ℤ) else 0) = bound l (i + 1) r := by
  unfold bound
  rcases lt_trichotomy (r / (levelModuli l 0).length) i with h | h | h
  · rw [if_pos h, if_neg h.ne, if_pos (by omega), show i + 1 - 1 - r / (levelModuli l 0).length = (i - 1 - r / (levelModuli l 0).length) + 1 by omega,
      pow_succ]
    ring
  · rw [if_neg (by omega), if_pos h, if_pos (by omega), h]
    simp
  · rw [if_neg (by omega), if_neg h.ne', if_neg (by omega)]
    simp

theorem errors_lin (hq : ∀ q ∈ l, 0 < q) (hn : 0 < (levelModuli l 0).length) (Rm : Nat → Rg (2 ^ K) → Rg (2 ^ K)) (f1 : Rg (2 ^ K))
    (hR : R = K * (levelModuli l 0).length) : ∀ i, i ≤ K → ∀ j,
      Lin (2 ^ K) v R W (bound l i) fun w => errors l Rm f1 (samples l (2 ^ K) v w) i j := by
  have hN : 0 < 2 ^ K := by positivity
  intro i
  induction i with
  | zero =>
    intro _ j
    exact Lin.zero hN fun r => by unfold bound; simp
  | succ i ih =>
    intro hi j
    have ho := odd_exp (K := K) (i := i) (by omega)
    have hcop : Nat.Coprime (2 ^ (K - i) + 1) (2 ^ K) := Nat.Coprime.pow_right K (Nat.coprime_two_right.mpr ho)
    have hE := ih (by omega)
    have hS := fun j => ((hE j).sg hN ho hcop).add hN
      (Lin.switch (v := v) (W := W) hN hq hn (show i < K by omega) hR (sg (2 ^ (K - i) + 1) (masks Rm f1 i j)))
    by_cases hj : j < 2 ^ i
    · have := (hE j).add hN (hS j)
      simp only [errors, nextE, if_pos hj]
      exact this.mono fun r => (bound_succ l i r).le
    · have := ((hE (j - 2 ^ i)).sub hN (hS (j - 2 ^ i))).monomial hN (2 ^ K - 2 ^ i)
      simp only [errors, nextE, if_neg hj]
      exact this.mono fun r => (bound_succ l i r).le

/-! ### Counting -/

/-- The choices of words for which some coefficient of one of `J` linear functions is at least `T`. -/
theorem card_family (hN : 0 < N) (hv : 1 ≤ v) (hW : 4 * v * N ≤ 64 * W) {J : Nat} {E : Nat → (Fin R → Fin W → Fin (2 ^ 64)) → Rg N}
    (hE : ∀ j, j < J → Lin N v R W b (E j)) {D : ℝ} (hD : 0 < D) (hb : ∑ r ∈ Finset.range R, (N : ℝ) * (b r : ℝ) ^ 2 ≤ D) {T : Nat}
    (s : Finset (Fin R → Fin W → Fin (2 ^ 64))) (hs : ∀ w ∈ s, ∃ j k, j < J ∧ k < N ∧ (T : ℤ) ≤ |cf (E j w) k|) :
    (s.card : ℝ) ≤ 2 ^ (64 * W * R) * (2 * J * N * Real.exp (-((T : ℝ) ^ 2 / (2 * v * D)))) := by
  classical
  let X := Real.exp (-((T : ℝ) ^ 2 / (2 * v * D)))
  let S : Nat → Nat → Finset (Fin R → Fin W → Fin (2 ^ 64)) := fun j k => s.filter fun w => (T : ℤ) ≤ |cf (E j w) k|
  have hS : ∀ j ∈ Finset.range J, ∀ k ∈ Finset.range N, ((S j k).card : ℝ) ≤ 2 ^ (64 * W * R) * (2 * X) := by
    intro j hj k hk
    have hk' := Finset.mem_range.mp hk
    obtain ⟨c, h1, h2⟩ := hE j (Finset.mem_range.mp hj)
    refine card_rows hv hW (fun r m => ((cf (c r m) k : ℤ) : ℝ)) hD ((Finset.sum_le_sum fun r _ => ?_).trans hb) (by positivity) _ fun w hw => ?_
    · calc _ ≤ ∑ _m ∈ Finset.range N, (b r : ℝ) ^ 2 := by
            refine Finset.sum_le_sum fun m _ => ?_
            have := h1 r m k hk'
            have h3 := sq_le_sq' (by linarith [neg_abs_le (cf (c r m) k)]) ((le_abs_self _).trans this)
            exact_mod_cast h3
        _ = _ := by rw [Finset.sum_const, Finset.card_range, nsmul_eq_mul]
    · have h3 := (Finset.mem_filter.mp hw).2
      have h4 : cf (E j w) k = ∑ r ∈ Finset.range R, ∑ m ∈ Finset.range N, cbdValue (streams w r) v m * cf (c r m) k := by
        rw [h2, cf_sum hN]
        refine Finset.sum_congr rfl fun r _ => ?_
        rw [cf_sum hN]
        exact Finset.sum_congr rfl fun m _ => by rw [cf_int_mul hN]
      rw [h4] at h3
      have h5 : ((T : ℤ) : ℝ) ≤ ((|∑ r ∈ Finset.range R, ∑ m ∈ Finset.range N, cbdValue (streams w r) v m * cf (c r m) k| : ℤ) : ℝ) :=
        Int.cast_le.mpr h3
      rw [Int.cast_natCast] at h5
      refine h5.trans (le_of_eq ?_)
      push_cast
      rfl
  have hsub : s ⊆ (Finset.range J).biUnion fun j => (Finset.range N).biUnion (S j) := by
    intro w hw
    obtain ⟨j, k, hj, hk, h1⟩ := hs w hw
    exact Finset.mem_biUnion.mpr ⟨j, Finset.mem_range.mpr hj, Finset.mem_biUnion.mpr ⟨k, Finset.mem_range.mpr hk, Finset.mem_filter.mpr ⟨hw, h1⟩⟩⟩
  calc (s.card : ℝ) ≤ (((Finset.range J).biUnion fun j => (Finset.range N).biUnion (S j)).card : ℝ) := by exact_mod_cast Finset.card_le_card hsub
    _ ≤ ((∑ j ∈ Finset.range J, ∑ k ∈ Finset.range N, (S j k).card : Nat) : ℝ) := by
        exact_mod_cast Finset.card_biUnion_le.trans (Finset.sum_le_sum fun j _ => Finset.card_biUnion_le)
    _ = ∑ j ∈ Finset.range J, ∑ k ∈ Finset.range N, ((S j k).card : ℝ) := by push_cast; rfl
    _ ≤ ∑ _j ∈ Finset.range J, ∑ _k ∈ Finset.range N, 2 ^ (64 * W * R) * (2 * X) :=
        Finset.sum_le_sum fun j hj => Finset.sum_le_sum fun k hk => hS j hj k hk
    _ = _ := by simp only [Finset.sum_const, Finset.card_range, nsmul_eq_mul]; ring

theorem sum_getD_sq (ms : List Nat) : ∑ j ∈ Finset.range ms.length, ms.getD j 1 ^ 2 = (ms.map (· ^ 2)).sum := by
  induction ms with
  | nil => simp
  | cons q ms ih => rw [List.length_cons, Finset.sum_range_succ', List.map_cons, List.sum_cons]; simp [← ih, add_comm]

/-- The squares of the bounds of the last stage. -/
theorem bound_squares (hn : 0 < (levelModuli l 0).length) :
    ∑ r ∈ Finset.range (K * (levelModuli l 0).length), ((2 ^ K : Nat) : ℝ) * (bound l K r : ℝ) ^ 2 =
      switchSquares (2 ^ K) l 0 * ((((2 ^ K : Nat) : ℝ) ^ 2 - 1) / 3) := by
  have h1 : ∀ r ∈ Finset.range (K * (levelModuli l 0).length), ((2 ^ K : Nat) : ℝ) * (bound l K r : ℝ) ^ 2 =
      (fun i j => ((2 ^ K : Nat) : ℝ) * (4 ^ (K - 1 - i) * (((levelModuli l 0).getD j 1 : Nat) : ℝ) ^ 2)) (r / (levelModuli l 0).length)
        (r % (levelModuli l 0).length) := by
    intro r hr
    have : r / (levelModuli l 0).length < K := Nat.div_lt_of_lt_mul (by rw [mul_comm]; exact Finset.mem_range.mp hr)
    unfold bound rowQ
    rw [if_pos this]
    push_cast
    rw [mul_pow, ← pow_mul, mul_comm _ 2, pow_mul]
    norm_num
  refine ((Finset.sum_congr rfl h1).trans (sum_rows_mul hn
    (fun i j => ((2 ^ K : Nat) : ℝ) * (4 ^ (K - 1 - i) * (((levelModuli l 0).getD j 1 : Nat) : ℝ) ^ 2)) K)).trans ?_
  have h2 : ∀ i, ∑ j ∈ Finset.range (levelModuli l 0).length, ((2 ^ K : Nat) : ℝ) * (4 ^ (K - 1 - i) * (((levelModuli l 0).getD j 1 : Nat) : ℝ) ^ 2) =
      (switchSquares (2 ^ K) l 0 : ℝ) * 4 ^ (K - 1 - i) := by
    intro i
    unfold switchSquares
    rw [← sum_getD_sq]
    push_cast
    rw [Finset.mul_sum, Finset.sum_mul]
    exact Finset.sum_congr rfl fun j _ => by ring
  simp only [h2]
  rw [← Finset.mul_sum, Finset.sum_range_reflect (fun i => (4 : ℝ) ^ i) K, geom_sum_eq (by norm_num)]
  push_cast
  rw [← pow_mul, mul_comm K 2, pow_mul]
  norm_num

theorem switchSquares_pos (hN : 0 < N) (hq : ∀ q ∈ l, 0 < q) {i : Nat} (hn : 0 < (levelModuli l i).length) : 0 < switchSquares N l i := by
  unfold switchSquares
  have h0 : 0 < (levelModuli l i)[0] := hq _ (List.mem_of_mem_take (List.getElem_mem hn))
  have h1 : (levelModuli l i)[0] ^ 2 ≤ ((levelModuli l i).map (· ^ 2)).sum :=
    List.le_sum_of_mem (List.mem_map.mpr ⟨_, List.getElem_mem hn, rfl⟩)
  have h2 : 0 < (levelModuli l i)[0] ^ 2 := by positivity
  exact Nat.mul_pos hN (by omega)

/-- The choices of words for which some output of the expansion has an error coefficient of `T` or more. -/
theorem card_errors (hq : ∀ q ∈ l, 0 < q) (hn : 0 < (levelModuli l 0).length) (hK : 1 ≤ K) (Rm : Nat → Rg (2 ^ K) → Rg (2 ^ K)) (f1 : Rg (2 ^ K))
    (hR : R = K * (levelModuli l 0).length) (hv : 1 ≤ v) (hW : 4 * v * 2 ^ K ≤ 64 * W) {T : Nat} (s : Finset (Fin R → Fin W → Fin (2 ^ 64)))
    (hs : ∀ w ∈ s, ∃ j k, j < 2 ^ K ∧ k < 2 ^ K ∧ (T : ℤ) ≤ |cf (errors l Rm f1 (samples l (2 ^ K) v w) K j) k|) :
    (s.card : ℝ) ≤ 2 ^ (64 * W * R) * (2 * ((2 ^ K : Nat) : ℝ) ^ 2 *
      Real.exp (-(3 * (T : ℝ) ^ 2 / (2 * v * switchSquares (2 ^ K) l 0 * (((2 ^ K : Nat) : ℝ) ^ 2 - 1))))) := by
  have hpos : 0 < 2 ^ K := by positivity
  have hD1 : (0 : ℝ) < switchSquares (2 ^ K) l 0 := by exact_mod_cast switchSquares_pos hpos hq hn
  have h2 : (2 : ℝ) ≤ ((2 ^ K : Nat) : ℝ) := by
    have : 2 ^ 1 ≤ 2 ^ K := Nat.pow_le_pow_right (by norm_num) hK
    exact_mod_cast this
  have hD2 : (0 : ℝ) < ((2 ^ K : Nat) : ℝ) ^ 2 - 1 := by nlinarith
  have := card_family hpos hv hW (J := 2 ^ K) (E := fun j w => errors l Rm f1 (samples l (2 ^ K) v w) K j)
    (fun j _ => errors_lin hq hn Rm f1 hR K le_rfl j) (D := switchSquares (2 ^ K) l 0 * ((((2 ^ K : Nat) : ℝ) ^ 2 - 1) / 3)) (by positivity)
    (by rw [hR]; exact (bound_squares hn).le) s hs
  refine this.trans (le_of_eq ?_)
  have hx : -((T : ℝ) ^ 2 / (2 * v * (switchSquares (2 ^ K) l 0 * ((((2 ^ K : Nat) : ℝ) ^ 2 - 1) / 3)))) =
      -(3 * (T : ℝ) ^ 2 / (2 * v * switchSquares (2 ^ K) l 0 * (((2 ^ K : Nat) : ℝ) ^ 2 - 1))) := by
    have hv' : (0 : ℝ) < v := by exact_mod_cast hv
    field_simp
  rw [hx]
  ring

/-! ### The keys and the expansion -/

theorem build (h : IsParams (2 ^ K) t l variance P) {sk : SecretKey} (hk : IsKey P sk) (hv1 : 1 ≤ variance) (hv2 : variance ≤ 16)
    (hl : l.length ≠ 1) (hK : K ≤ 31) {aTape : Nat → Nat → Nat → Nat → Nat} (ha : ∀ k j, TapeAt l 0 (aTape k j)) :
    ∃ Rm : Nat → Rg (2 ^ K) → Rg (2 ^ K), ∀ (pr : Profile) (rng : Nat → Nat → Nat → Nat), (∀ k j i, rng k j i < 2 ^ 64) →
      ∀ a0 a1 : Nat → Nat → Nat → Nat, (∀ j, TapeAt l 0 (a0 j)) → (∀ j, TapeAt l 0 (a1 j)) →
      ∀ r0 r1 : Nat → Nat → Nat, (∀ j i, r0 j i < 2 ^ 64) → (∀ j i, r1 j i < 2 ^ 64) →
      ∃ ev, Evaluation.build pr sk P aTape rng a0 a1 r0 r1 = .ok ev ∧ ∀ i, i < K → ∃ g, ev.gk.lookup (2 ^ (K - i) + 1) = some g ∧
        Exact P l (keyRing (2 ^ K) sk) (2 ^ (K - i) + 1) (Rm i) (fun j => (List.range (2 ^ K)).map (cbdValue (rng i j) variance)) g := by
  obtain ⟨ext, L, hw, hL, -, hml, -⟩ := level_zero h
  have hgal : ∀ k, ∃ R : Rg (2 ^ K) → Rg (2 ^ K), k < K → ∀ (pr : Profile) (rng : Nat → Nat → Nat), (∀ j i, rng j i < 2 ^ 64) →
      ∃ sub g, Substitution.new pr L.qCtx (2 ^ (K - k) + 1) = .ok sub ∧ GaliosKey.new pr sk sub 0 (aTape k) rng = .ok g ∧
        Exact P l (keyRing (2 ^ K) sk) (2 ^ (K - k) + 1) R (fun j => (List.range (2 ^ K)).map (cbdValue (rng j) variance)) g := by
    intro k
    by_cases hk' : k < K
    · obtain ⟨R, hR⟩ := galois h hk hv1 hv2 hl hK hL.q (odd_exp hk') (ha k)
      exact ⟨R, fun _ => hR⟩
    · exact ⟨fun f => f, fun h => absurd h hk'⟩
  choose Rm hRm using hgal
  refine ⟨Rm, fun pr rng hr a0 a1 ha0 ha1 r0 r1 hr0 hr1 => ?_⟩
  have hskw := BfvP.key hw hk
  have hpoly : PolyAt P 0 (keyRing (2 ^ K) sk) (enc L.qCtx .ntt (sk.ring K)) := by
    rw [BfvP.polyAt_iff hL, BfvP.keyRing_eq]
  obtain ⟨g, hg, -⟩ := c39_encrypt_poly h hk pr hv1 hv2 hpoly ha0 ha1 hr0 hr1
  obtain ⟨gk, hfold, hgk⟩ := foldR_range_ok (f := buildStep pr sk P aTape rng) (s := []) (n := K)
    (Inv := fun n (m : List (Nat × GaliosKey)) => ∀ i, i < n → ∃ g, m.lookup (2 ^ (K - i) + 1) = some g ∧
      Exact P l (keyRing (2 ^ K) sk) (2 ^ (K - i) + 1) (Rm i) (fun j => (List.range (2 ^ K)).map (cbdValue (rng i j) variance)) g)
    (fun i hi => absurd hi (Nat.not_lt_zero _)) (by
      intro n m hn hm
      obtain ⟨sub, gg, h1, h2, h3⟩ := hRm n hn pr (rng n) (hr n)
      refine ⟨(2 ^ (K - n) + 1, gg) :: m, ?_, fun i hi => ?_⟩
      · unfold buildStep powW
        have e1 : n % 2 ^ 32 = n := Nat.mod_eq_of_lt (by omega)
        have e2 : 2 ^ n < 2 ^ 64 := Nat.pow_lt_pow_right (by norm_num) (by omega)
        have e3 : 2 ^ (K - n) ≤ 2 ^ 31 := Nat.pow_le_pow_right (by norm_num) (by omega)
        rw [e1, fit_ok e2, res_ok_bind, divR_ok (by positivity), res_ok_bind, hw.deg, Nat.pow_div hn.le (by norm_num), addW_ok (by omega),
          res_ok_bind, idx_of hL.q, res_ok_bind, h1, res_ok_bind, h2, res_ok_bind]
      · by_cases hin : i = n
        · subst hin
          exact ⟨gg, by rw [List.lookup_cons_self], h3⟩
        · have hlt : 2 ^ (K - n) < 2 ^ (K - i) := Nat.pow_lt_pow_right (by norm_num) (by omega)
          obtain ⟨g', q1, q2⟩ := hm i (by omega)
          refine ⟨g', ?_, q2⟩
          rw [List.lookup_cons, show (2 ^ (K - i) + 1 == 2 ^ (K - n) + 1) = false from beq_eq_false_iff_ne.mpr (by omega)]
          exact q1)
  refine ⟨⟨gk, g⟩, ?_, hgk⟩
  unfold Evaluation.build
  rw [hw.deg, RnsScaler.ilog2_two_pow pr (by omega), res_ok_bind, hfold, res_ok_bind, idx_of hL.q, res_ok_bind]
  have hP := hk.1
  subst hP
  rw [SecretKey.polyNtt_enc hskw pr hL.wf.ctx, res_ok_bind, hg, res_ok_bind]

theorem unpack (h : IsParams (2 ^ K) t l variance P) {s : Rg (2 ^ K)} {xPows : List Poly} (hx : IsMonomials (2 ^ K) P xPows)
    {ct : BfvCipherText} {f0 f1 : Rg (2 ^ K)} (hct : IsCt P 0 [f0, f1] ct) : ∃ f1' : Rg (2 ^ K),
    ∀ (pr : Profile) (ev : Evaluation) (Rm : Nat → Rg (2 ^ K) → Rg (2 ^ K)) (e : Nat → Nat → List Int),
      (∀ i, i < K → ∃ g, ev.gk.lookup (2 ^ (K - i) + 1) = some g ∧ Exact P l s (2 ^ (K - i) + 1) (Rm i) (e i) g) →
      ∃ bits, Evaluation.unpackWith pr ev xPows ct = .ok bits ∧ bits.length = 2 ^ K ∧
        ∀ j, j < 2 ^ K → ∃ c, ∃ g0 g1 : Rg (2 ^ K), bits[j]? = some c ∧ IsCt P 0 [g0, g1] c ∧
          Cong (levelQ l 0) (phase s [g0, g1]) (((cf (phase s [f0, f1]) j : ℤ) : Rg (2 ^ K)) + errors l Rm f1' e K j) := by
  have hpos : 0 < 2 ^ K := by positivity
  obtain ⟨ext, L, hw, hL, -, hml, -⟩ := level_zero h
  have hK : K ≤ 62 := hL.wf.ctx.core.K_le
  obtain ⟨c1, c2, c3⟩ := (BfvP.isCt_iff hL _ _).mp hct
  have hQ : L.qCtx.rns.product = levelQ l 0 := by
    rw [hL.wf.ctx.core.prod, ← hml]; exact BfvP.levelQ_eq hL
  have hodd : Odd (levelQ l 0) := by
    rw [← hml, ← BfvP.levelQ_eq hL]
    refine odd_prod _ fun q hq => ?_
    obtain ⟨hp, hm⟩ := hL.wf.ctx.prime hq
    rw [Nat.odd_iff, ← Nat.mod_mod_of_dvd q (dvd_mul_right 2 (2 ^ K)), hm]
  have hcop : Nat.Coprime (2 ^ K) (levelQ l 0) := Nat.Coprime.pow_left K (Nat.coprime_two_left.mpr hodd)
  have hQ2 : 2 ≤ levelQ l 0 := by
    rw [← hml, ← BfvP.levelQ_eq hL]
    exact two_le_prod hL.wf.ctx.core.ne fun q hq => (hL.wf.ctx.prime hq).1.two_le
  obtain ⟨nInv, hn⟩ := modInverse_coprime hcop
  obtain ⟨-, -, hinv⟩ := modInverse_some hQ2 hn
  refine ⟨f1 * ((nInv : ℤ) : Rg (2 ^ K)), fun pr ev Rm e hev => ?_⟩
  have hct' : IsCt P 0 [f0 * ((nInv : ℤ) : Rg (2 ^ K)), f1 * ((nInv : ℤ) : Rg (2 ^ K))]
      { ct with cts := [enc L.qCtx .ntt (f0 * ((nInv : ℤ) : Rg (2 ^ K))), enc L.qCtx .ntt (f1 * ((nInv : ℤ) : Rg (2 ^ K)))] } :=
    (BfvP.isCt_iff hL _ _).mpr ⟨c1, c2, rfl⟩
  obtain ⟨bits, hb, hlen, hgood⟩ := stages h hK pr hev hx hct'
  refine ⟨bits, ?_, hlen, fun j hj => ?_⟩
  · unfold unpackWith
    rw [c1, c2, idx_of hL.q, res_ok_bind, hw.deg, hQ, hn]
    simp only [unwrapR, res_ok_bind, c3, List.map_cons, List.map_nil, mapR, Poly.mulBig_enc hL.wf.ctx]
    rw [RnsScaler.ilog2_two_pow pr (by omega), res_ok_bind]
    have hc1 : ∀ x, ({ ct with cts := x } : BfvCipherText) = { params := P, cts := x, level := 0 } := fun x => by rw [← c1, ← c2]
    rw [hc1] at hb
    rw [hb, res_ok_bind, rassert_ok hlen, res_ok_bind]
  · obtain ⟨c, hc, g0, h1, h3⟩ := hgood j hj
    have hph : phase s [f0 * ((nInv : ℤ) : Rg (2 ^ K)), f1 * ((nInv : ℤ) : Rg (2 ^ K))] = ((nInv : ℤ) : Rg (2 ^ K)) * phase s [f0, f1] := by
      simp only [BfvP.phase_two]; ring
    refine ⟨c, g0, _, hc, h1, cong_trans h3 (cong_add ?_ (cong_refl _))⟩
    rw [hph, tr_last, cf_int_mul hpos]
    have hz : ((levelQ l 0 : ℕ) : ℤ) ∣ 2 ^ K * ((nInv : ℤ) * cf (phase s [f0, f1]) j) - cf (phase s [f0, f1]) j := by
      have : ((levelQ l 0 : ℕ) : ℤ) ∣ 2 ^ K * (nInv : ℤ) - 1 := by
        have hd := Nat.div_add_mod (2 ^ K * nInv) (levelQ l 0)
        rw [hinv] at hd
        refine ⟨((2 ^ K * nInv / levelQ l 0 : ℕ) : ℤ), ?_⟩
        rw [← Int.natCast_mul, eq_comm, eq_sub_iff_add_eq]
        exact_mod_cast hd
      rw [show 2 ^ K * ((nInv : ℤ) * cf (phase s [f0, f1]) j) - cf (phase s [f0, f1]) j
        = (2 ^ K * (nInv : ℤ) - 1) * cf (phase s [f0, f1]) j by ring]
      exact Dvd.dvd.mul_right this _
    obtain ⟨w, hw⟩ := hz
    refine ⟨((w : ℤ) : Rg (2 ^ K)), ?_⟩
    rw [← Int.cast_sub, hw, Int.cast_mul]

end OnionPIR.ExpandTail
