import Verif.Spec.Adaptive
import Verif.Props.Privacy
/-
C100: privacy of encryptions and queries that are chosen adaptively.
-/
namespace OnionPIR
open Rg Poly Spec

variable {N t : Nat} {l : List Nat} {variance : Nat} {P : BfvParameters}

namespace Adaptive
open Privacy

variable {Ω Aux : Type} {k W : Nat}

/-- The ciphertexts `cts` are made from the pairs `x`. -/
def Made (P : BfvParameters) {Q : Nat} (M : List BfvCipherText → Rg N) (x : Fin k → Rq N Q × Rq N Q) (cts : List BfvCipherText) : Prop :=
  cts.length = k ∧ ∀ j : Fin k, ∃ ct, cts[(j : Nat)]? = some ct ∧ Stored P (x j + (toRq Q (M (cts.take j)), 0)) ct

theorem made_unique (h : IsParams N t l variance P) {M : List BfvCipherText → Rg N} {x : Fin k → Rq N (levelQ l 0) × Rq N (levelQ l 0)}
    {a b : List BfvCipherText} (ha : Made P M x a) (hb : Made P M x b) : a = b := by
  have key : ∀ j, j ≤ k → a.take j = b.take j := by
    intro j
    induction j with
    | zero => intro _; rfl
    | succ j ih =>
      intro hj
      have e := ih (by omega)
      obtain ⟨c, c1, c2⟩ := ha.2 ⟨j, hj⟩
      obtain ⟨d, d1, d2⟩ := hb.2 ⟨j, hj⟩
      dsimp only at c1 c2 d1 d2
      rw [e] at c2
      rw [List.take_add_one, List.take_add_one, e, c1, d1, (stored h _).unique c2 d2]
  have := key k (le_refl k)
  rwa [List.take_of_length_le ha.1.le, List.take_of_length_le hb.1.le] at this

theorem made_exists (h : IsParams N t l variance P) (M : List BfvCipherText → Rg N) :
    ∀ {k : Nat} (x : Fin k → Rq N (levelQ l 0) × Rq N (levelQ l 0)), ∃ cts, Made P M x cts
  | 0, _ => ⟨[], rfl, fun j => j.elim0⟩
  | k + 1, x => by
    obtain ⟨cts, h1, h2⟩ := made_exists h M fun j => x j.castSucc
    obtain ⟨ct, h3, -⟩ := stored h (x (Fin.last k) + (toRq _ (M cts), 0))
    refine ⟨cts ++ [ct], by simp [h1], fun j => ?_⟩
    refine Fin.lastCases ?_ (fun j => ?_) j
    · exact ⟨ct, by simp [← h1], by simpa [← h1] using h3⟩
    · obtain ⟨c, c1, c2⟩ := h2 j
      have hj : (j : Nat) < cts.length := by rw [h1]; exact j.2
      exact ⟨c, by rw [Fin.val_castSucc, List.getElem?_append_left hj]; exact c1,
        by rw [Fin.val_castSucc, List.take_append_of_le_length hj.le]; exact c2⟩

/-- The encryptions are made from RLWE samples. -/
theorem enc (h : IsParams N t l variance P) {sk : SecretKey} (hk : IsKey P sk) (pr : Profile) (hv1 : 1 ≤ variance) (hv2 : variance ≤ 16)
    {p : List BfvCipherText → Poly} {M : List BfvCipherText → Rg N} (hp : ∀ hist, PolyAt P 0 (M hist) (p hist)) :
    ∀ {k : Nat} (c : EncCoins N l k W), ∃ cts, adaptiveEnc pr sk p (List.ofFn c) = .ok cts ∧
      Made P M (rlweSamples variance (keyRing N sk) fun j => (maskEquiv h (c j).1, (c j).2)) cts
  | 0, _ => ⟨[], rfl, rfl, fun j => j.elim0⟩
  | k + 1, c => by
    obtain ⟨cts, h0, h1, h2⟩ := enc h hk pr hv1 hv2 hp fun j => c j.castSucc
    obtain ⟨ct, h3, h4⟩ := c79_encrypt_poly h hk pr hv1 hv2 (hp cts) (maskOf_spec h (c (Fin.last k)).1) (stream_lt (c (Fin.last k)).2)
    refine ⟨cts ++ [ct], ?_, by simp [h1], fun j => ?_⟩
    · unfold adaptiveEnc at h0 ⊢
      rw [List.ofFn_succ', List.concat_eq_append, foldR_append, h0, res_ok_bind, foldR_cons, h3]
      rfl
    refine Fin.lastCases ?_ (fun j => ?_) j
    · refine ⟨ct, by simp [← h1], _, _, ?_, ?_, h4⟩
      · rw [Fin.val_last, List.take_left' h1]
        unfold rlweSamples maskEquiv
        simp [toRq]
      · unfold rlweSamples maskEquiv
        simp
    · obtain ⟨c, c1, c2⟩ := h2 j
      have hj : (j : Nat) < cts.length := by rw [h1]; exact j.2
      exact ⟨c, by rw [Fin.val_castSucc, List.getElem?_append_left hj]; exact c1,
        by rw [Fin.val_castSucc, List.take_append_of_le_length hj.le]; exact c2⟩

theorem real (h : IsParams N t l variance P) {sk : Ω → SecretKey} (hk : ∀ ω, IsKey P (sk ω)) (pr : Profile) (hv1 : 1 ≤ variance)
    (hv2 : variance ≤ 16) {p : Aux → List BfvCipherText → Poly} {M : Aux → List BfvCipherText → Rg N} (hp : ∀ z hist, PolyAt P 0 (M z hist) (p z hist))
    (aux : Ω → Aux) (D : Aux → List BfvCipherText → Prop) :
    prob (fun x : Ω × EncCoins N l k W => ∃ cts, adaptiveEnc pr (sk x.1) (p (aux x.1)) (List.ofFn x.2) = .ok cts ∧ D (aux x.1) cts) =
    prob fun x : Ω × (Fin k → Rq N (levelQ l 0) × Words W) =>
      shiftedChosen P M D (aux x.1) (rlweSamples variance (keyRing N (sk x.1)) x.2) := by
  refine prob_equiv (Equiv.prodCongr (Equiv.refl Ω) (Equiv.piCongrRight fun _ => Equiv.prodCongr (maskEquiv h) (Equiv.refl _))) ?_
  rintro ⟨ω, c⟩
  obtain ⟨cts, h1, h2⟩ := enc h (hk ω) pr hv1 hv2 (hp (aux ω)) c
  constructor
  · rintro ⟨cts', h3, h4⟩
    obtain rfl := Except.ok.inj (h1.symm.trans h3)
    exact ⟨cts, h2.1, h2.2, h4⟩
  · rintro ⟨cts', h3, h4, h5⟩
    obtain rfl : cts = cts' := made_unique h h2 ⟨h3, h4⟩
    exact ⟨cts, h1, h5⟩

/-- Subtracting from every pair what was added for the pairs before is a bijection. -/
theorem shear (h : IsParams N t l variance P) (M : List BfvCipherText → Rg N) :
    ∃ e : (Fin k → Rq N (levelQ l 0) × Rq N (levelQ l 0)) ≃ (Fin k → Rq N (levelQ l 0) × Rq N (levelQ l 0)),
      ∀ x cts, Made P (fun _ => 0) x cts ↔ Made P M (e x) cts := by
  have hfin : Finite (Rq N (levelQ l 0)) := by
    refine Nat.finite_of_card_ne_zero ?_
    rw [(c79_card h).1]
    exact (pow_pos (c79_card h).2 _).ne'
  have h0 : toRq (levelQ l 0) (0 : Rg N) = 0 := map_zero _
  choose cts hcts using fun x : Fin k → Rq N (levelQ l 0) × Rq N (levelQ l 0) => made_exists h (fun _ => 0) x
  let f : (Fin k → Rq N (levelQ l 0) × Rq N (levelQ l 0)) → (Fin k → Rq N (levelQ l 0) × Rq N (levelQ l 0)) := fun x j =>
    x j - (toRq (levelQ l 0) (M ((cts x).take j)), 0)
  have hf : ∀ x, Made P M (f x) (cts x) := by
    intro x
    refine ⟨(hcts x).1, fun j => ?_⟩
    obtain ⟨ct, h1, h2⟩ := (hcts x).2 j
    rw [h0, ← Prod.zero_eq_mk, add_zero] at h2
    refine ⟨ct, h1, ?_⟩
    dsimp only [f]
    rw [sub_add_cancel]
    exact h2
  have hinj : Function.Injective f := by
    intro x y hxy
    have e : cts x = cts y := made_unique h (hf x) (hxy ▸ hf y)
    funext j
    have := congrFun hxy j
    dsimp only [f] at this
    rw [e] at this
    exact sub_left_inj.mp this
  refine ⟨Equiv.ofBijective f (Finite.injective_iff_bijective.mp hinj), fun x c => ?_⟩
  rw [Equiv.ofBijective_apply]
  constructor
  · intro hc
    rw [made_unique h hc (hcts x)]
    exact hf x
  · intro hc
    rw [made_unique h hc (hf x)]
    exact hcts x

theorem ideal (h : IsParams N t l variance P) (M : Aux → List BfvCipherText → Rg N) (aux : Ω → Aux) (D : Aux → List BfvCipherText → Prop) :
    (prob fun x : Ω × (Fin k → Rq N (levelQ l 0) × Rq N (levelQ l 0)) => shiftedChosen P M D (aux x.1) x.2) =
      prob fun x : Ω × (Fin k → Rq N (levelQ l 0) × Rq N (levelQ l 0)) => shiftedChosen P (fun _ _ => 0) D (aux x.1) x.2 := by
  choose e he using fun z : Aux => shear (k := k) h (M z)
  symm
  refine prob_equiv (Equiv.prodShear (Equiv.refl Ω) fun ω => e (aux ω)) ?_
  rintro ⟨ω, x⟩
  constructor
  · rintro ⟨cts, h1, h2, h3⟩
    have := (he (aux ω) x cts).mp ⟨h1, h2⟩
    exact ⟨cts, this.1, this.2, h3⟩
  · rintro ⟨cts, h1, h2, h3⟩
    have := (he (aux ω) x cts).mpr ⟨h1, h2⟩
    exact ⟨cts, this.1, this.2, h3⟩

end Adaptive

open Privacy

/-- C100: encryptions of polynomials that are chosen one after the other, depending on the ciphertexts so far and on `aux`: for every two ways of
choosing and every predicate `D`, the probabilities that `D` holds of the ciphertexts differ by at most the advantages of two explicit
distinguishers of as many RLWE samples from uniform pairs. -/
theorem c100_encryptions (h : IsParams N t l variance P) {Ω Aux : Type} {sk : Ω → SecretKey} (hk : ∀ ω, IsKey P (sk ω)) (pr : Profile)
    (hv1 : 1 ≤ variance) (hv2 : variance ≤ 16) (k W : Nat) {p p' : Aux → List BfvCipherText → Poly} {M M' : Aux → List BfvCipherText → Rg N}
    (hp : ∀ z hist, PolyAt P 0 (M z hist) (p z hist)) (hp' : ∀ z hist, PolyAt P 0 (M' z hist) (p' z hist)) (aux : Ω → Aux)
    (D : Aux → List BfvCipherText → Prop) :
    |prob (fun x : Ω × EncCoins N l k W => ∃ cts, adaptiveEnc pr (sk x.1) (p (aux x.1)) (List.ofFn x.2) = .ok cts ∧ D (aux x.1) cts) -
      prob (fun x : Ω × EncCoins N l k W => ∃ cts, adaptiveEnc pr (sk x.1) (p' (aux x.1)) (List.ofFn x.2) = .ok cts ∧ D (aux x.1) cts)| ≤
      rlweAdvantage (Q := levelQ l 0) (k := k) W variance (fun ω => keyRing N (sk ω)) aux (shiftedChosen P M D) +
      rlweAdvantage (Q := levelQ l 0) (k := k) W variance (fun ω => keyRing N (sk ω)) aux (shiftedChosen P M' D) := by
  unfold rlweAdvantage
  rw [Adaptive.real h hk pr hv1 hv2 hp, Adaptive.real h hk pr hv1 hv2 hp']
  exact bound (Adaptive.ideal h M aux D) (Adaptive.ideal h M' aux D)

namespace Adaptive

theorem pieces_append {α : Type} {n : Nat} (hn : 0 < n) {F r : List α} {m : Nat} (hF : F.length = m * n) (hr : r.length < n) :
    pieces n (F ++ r) = pieces n F := by
  unfold pieces
  have e : (F ++ r).length / n = m := by
    rw [List.length_append, hF, Nat.mul_comm, Nat.mul_add_div hn, Nat.div_eq_of_lt hr, Nat.add_zero]
  have e' : F.length / n = m := by rw [hF, Nat.mul_div_cancel _ hn]
  rw [e, e']
  refine List.map_congr_left fun i hi => ?_
  have hi := List.mem_range.mp hi
  have h1 : (i + 1) * n ≤ m * n := Nat.mul_le_mul_right n hi
  rw [Nat.succ_mul] at h1
  rw [List.drop_append_of_le_length (by omega), List.take_append_of_le_length (by rw [List.length_drop]; omega)]

theorem pieces_snoc {α : Type} {n : Nat} (hn : 0 < n) {F q : List α} {m : Nat} (hF : F.length = m * n) (hq : q.length = n) :
    pieces n (F ++ q) = pieces n F ++ [q] := by
  unfold pieces
  have e : (F ++ q).length / n = m + 1 := by
    rw [List.length_append, hF, hq, ← Nat.succ_mul, Nat.mul_div_cancel _ hn]
  have e' : F.length / n = m := by rw [hF, Nat.mul_div_cancel _ hn]
  rw [e, e', List.range_succ, List.map_append, List.map_singleton]
  congr 1
  · refine List.map_congr_left fun i hi => ?_
    have hi := List.mem_range.mp hi
    have h1 : (i + 1) * n ≤ m * n := Nat.mul_le_mul_right n hi
    rw [Nat.succ_mul] at h1
    rw [List.drop_append_of_le_length (by omega), List.take_append_of_le_length (by rw [List.length_drop]; omega)]
  · rw [List.drop_left' hF, List.take_of_length_le hq.le]

variable {Ω Aux : Type} {W : Nat}

/-- The encryptions of one query, after the queries `F`. -/
theorem block (h : IsParams N t l variance P) {sk : SecretKey} (hk : IsKey P sk) (pr : Profile) (hv1 : 1 ≤ variance) (hv2 : variance ≤ 16)
    {n : Nat} {p : Fin n → Poly} {M : Fin n → Rg N} (hp : ∀ j, PolyAt P 0 (M j) (p j)) {F : List BfvCipherText} {f : List BfvCipherText → Poly} :
    ∀ {k : Nat} (hkn : k ≤ n) (c : EncCoins N l k W), (∀ (r : List BfvCipherText) (hr : r.length < k), f (F ++ r) = p ⟨r.length, by omega⟩) →
    ∃ cts : Fin k → BfvCipherText,
      foldR (fun h c => do
        let ct ← sk.encryptPoly pr (f h) c.1.tape (stream c.2)
        .ok (h ++ [ct])) F (List.ofFn c) = .ok (F ++ List.ofFn cts) ∧
      ∀ j, sk.encryptPoly pr (p (j.castLE hkn)) (c j).1.tape (stream (c j).2) = .ok (cts j)
  | 0, _, _, _ => ⟨fun j => j.elim0, by simp [foldR], fun j => j.elim0⟩
  | k + 1, hkn, c, hf => by
    obtain ⟨cts, h1, h2⟩ := block h hk pr hv1 hv2 hp (by omega : k ≤ n) (fun j => c j.castSucc) fun r hr => hf r (by omega)
    obtain ⟨ct, h3, -⟩ := c79_encrypt_poly h hk pr hv1 hv2 (hp ⟨k, hkn⟩) (maskOf_spec h (c (Fin.last k)).1) (stream_lt (c (Fin.last k)).2)
    refine ⟨Fin.snoc cts ct, ?_, fun j => ?_⟩
    · have e := hf (List.ofFn cts) (by simp)
      have e' : (⟨(List.ofFn cts).length, by simp; omega⟩ : Fin n) = ⟨k, hkn⟩ := Fin.ext (by simp)
      rw [e'] at e
      rw [List.ofFn_succ', List.concat_eq_append, foldR_append, h1, res_ok_bind, foldR_cons, e, h3, List.ofFn_succ', List.concat_eq_append]
      simp [foldR, res_ok_bind]
    · refine Fin.lastCases ?_ (fun j => ?_) j
      · rw [Fin.snoc_last]; exact h3
      · rw [Fin.snoc_castSucc]; exact h2 j

/-- The queries are the encryptions, cut into pieces. -/
theorem queries (h : IsParams N t l variance P) {sk : SecretKey} (hk : IsKey P sk) (pr : Profile) (hv1 : 1 ≤ variance) (hv2 : variance ≤ 16)
    {v : List (List BfvCipherText) → List Nat} {p : List (List BfvCipherText) → Fin (l.length + 1) → Poly}
    {M : List (List BfvCipherText) → Fin (l.length + 1) → Rg N} (hp : ∀ hist j, PolyAt P 0 (M hist j) (p hist j))
    (hq : ∀ hist, ∀ (sk : SecretKey) (W : Nat) (c : EncCoins N l (l.length + 1) W) (cts : Fin (l.length + 1) → BfvCipherText),
        (∀ j, sk.encryptPoly pr (p hist j) (c j).1.tape (stream (c j).2) = .ok (cts j)) →
        Tests.queryCts pr P sk (v hist) (c.tape 0) (c.words 0) (fun j => c.tape (j + 1)) (fun j => c.words (j + 1)) = .ok (List.ofFn cts))
    (coins : List (EncCoins N l (l.length + 1) W)) :
    ∃ F, adaptiveEnc pr sk (fun hist => p (pieces (l.length + 1) hist) ⟨hist.length % (l.length + 1), Nat.mod_lt _ (by omega)⟩)
        (coins.map List.ofFn).flatten = .ok F ∧ F.length = coins.length * (l.length + 1) ∧
      adaptiveQueries pr P sk v coins = .ok (pieces (l.length + 1) F) := by
  induction coins using List.reverseRecOn with
  | nil => exact ⟨[], rfl, by simp, by simp [adaptiveQueries, foldR, pieces]⟩
  | append_singleton coins c ih =>
    obtain ⟨F, h1, h2, h3⟩ := ih
    obtain ⟨cts, h4, h5⟩ := block h hk pr hv1 hv2 (hp (pieces (l.length + 1) F)) (F := F)
      (f := fun hist => p (pieces (l.length + 1) hist) ⟨hist.length % (l.length + 1), Nat.mod_lt _ (by omega)⟩) (le_refl (l.length + 1)) c (by
        intro r hr
        rw [pieces_append (by omega) h2 hr]
        congr 1
        apply Fin.ext
        show (F ++ r).length % (l.length + 1) = r.length
        rw [List.length_append, h2, Nat.mul_comm, Nat.mul_add_mod, Nat.mod_eq_of_lt hr])
    refine ⟨F ++ List.ofFn cts, ?_, ?_, ?_⟩
    · unfold adaptiveEnc at h1 ⊢
      rw [List.map_append, List.flatten_append, foldR_append, h1, res_ok_bind, List.map_singleton, List.flatten_singleton]
      exact h4
    · rw [List.length_append, h2, List.length_ofFn, List.length_append, List.length_singleton, Nat.succ_mul]
    · unfold adaptiveQueries at h3 ⊢
      rw [foldR_append, h3, res_ok_bind, foldR_cons, hq _ sk W c cts h5, pieces_snoc (by omega) h2 (by simp)]
      rfl

/-- The coins of the queries are the coins of their encryptions. -/
def coinsEquiv (N : Nat) (l : List Nat) (m n W : Nat) : (Fin m → EncCoins N l n W) ≃ EncCoins N l (m * n) W :=
  (Equiv.curry _ _ _).symm.trans (Equiv.arrowCongr finProdFinEquiv (Equiv.refl _))

theorem coinsEquiv_ofFn {m n W : Nat} (c : Fin m → EncCoins N l n W) :
    List.ofFn (coinsEquiv N l m n W c) = ((List.ofFn c).map List.ofFn).flatten := by
  rw [List.ofFn_mul, List.map_ofFn]
  congr 1
  apply congrArg
  funext i
  dsimp only [Function.comp]
  apply congrArg
  funext j
  unfold coinsEquiv
  have : finProdFinEquiv.symm ⟨(i : Nat) * n + j, by
      have := Nat.mul_le_mul_right n i.2; rw [Nat.succ_mul] at this; omega⟩ = (i, j) := by
    rw [Equiv.symm_apply_eq]
    apply Fin.ext
    simp [finProdFinEquiv, Nat.mul_comm, Nat.add_comm]
  simp only [Equiv.trans_apply, Equiv.arrowCongr_apply, Function.comp, Equiv.refl_apply, this, Equiv.curry_symm_apply, Function.uncurry]

theorem queries_prob (h : IsParams N t l variance P) {sk : Ω → SecretKey} (hk : ∀ ω, IsKey P (sk ω)) (pr : Profile) (hv1 : 1 ≤ variance)
    (hv2 : variance ≤ 16) {v : Aux → List (List BfvCipherText) → List Nat} {p : Aux → List (List BfvCipherText) → Fin (l.length + 1) → Poly}
    {M : Aux → List (List BfvCipherText) → Fin (l.length + 1) → Rg N} (hp : ∀ z hist j, PolyAt P 0 (M z hist j) (p z hist j))
    (hq : ∀ z hist, ∀ (sk : SecretKey) (W : Nat) (c : EncCoins N l (l.length + 1) W) (cts : Fin (l.length + 1) → BfvCipherText),
      (∀ j, sk.encryptPoly pr (p z hist j) (c j).1.tape (stream (c j).2) = .ok (cts j)) →
      Tests.queryCts pr P sk (v z hist) (c.tape 0) (c.words 0) (fun j => c.tape (j + 1)) (fun j => c.words (j + 1)) = .ok (List.ofFn cts))
    (m W : Nat) (aux : Ω → Aux) (D : Aux → List (List BfvCipherText) → Prop) :
    prob (fun x : Ω × (Fin m → EncCoins N l (l.length + 1) W) =>
        ∃ qs, adaptiveQueries pr P (sk x.1) (v (aux x.1)) (List.ofFn x.2) = .ok qs ∧ D (aux x.1) qs) =
    prob (fun x : Ω × EncCoins N l (m * (l.length + 1)) W =>
        ∃ cts, adaptiveEnc pr (sk x.1) (fun hist => p (aux x.1) (pieces (l.length + 1) hist) ⟨hist.length % (l.length + 1), Nat.mod_lt _ (by omega)⟩)
          (List.ofFn x.2) = .ok cts ∧ D (aux x.1) (pieces (l.length + 1) cts)) := by
  refine prob_equiv (Equiv.prodCongr (Equiv.refl Ω) (coinsEquiv N l m (l.length + 1) W)) ?_
  rintro ⟨ω, c⟩
  obtain ⟨F, h1, -, h3⟩ := queries h (hk ω) pr hv1 hv2 (hp (aux ω)) (hq (aux ω)) (List.ofFn c)
  rw [← coinsEquiv_ofFn] at h1
  constructor
  · rintro ⟨qs, h4, h5⟩
    obtain rfl := Except.ok.inj (h3.symm.trans h4)
    exact ⟨F, h1, h5⟩
  · rintro ⟨cts, h4, h5⟩
    obtain rfl := Except.ok.inj (h1.symm.trans h4)
    exact ⟨_, h3, h5⟩

end Adaptive

/-- C100: queries that are chosen one after the other, depending on the queries so far and on `aux` (such as the evaluation keys): for every two
ways `v`, `v'` of choosing coordinates and every predicate `D` of the server's view, the probabilities that `D` holds of the `m` queries differ by
at most the advantages of two distinguishers of `m (l.length + 1)` RLWE samples from uniform pairs. `M` and `M'` do not depend on `D`. -/
theorem c100_queries (h : IsParams N t l variance P) (pr : Profile) (hv1 : 1 ≤ variance) (hv2 : variance ≤ 16) {Aux : Type}
    {v v' : Aux → List (List BfvCipherText) → List Nat}
    (hv : ∀ z hist, (v z hist).length ≤ N ∧ 4 ≤ (v z hist).length ∧ ∀ x ∈ v z hist, x < 2 ^ 64)
    (hv' : ∀ z hist, (v' z hist).length ≤ N ∧ 4 ≤ (v' z hist).length ∧ ∀ x ∈ v' z hist, x < 2 ^ 64) :
    ∃ M M' : Aux → List BfvCipherText → Rg N, ∀ {Ω : Type} {sk : Ω → SecretKey} (_ : ∀ ω, IsKey P (sk ω)) (m W : Nat) (aux : Ω → Aux)
      (D : Aux → List (List BfvCipherText) → Prop),
      |prob (fun x : Ω × (Fin m → EncCoins N l (l.length + 1) W) =>
          ∃ qs, adaptiveQueries pr P (sk x.1) (v (aux x.1)) (List.ofFn x.2) = .ok qs ∧ D (aux x.1) qs) -
        prob (fun x : Ω × (Fin m → EncCoins N l (l.length + 1) W) =>
          ∃ qs, adaptiveQueries pr P (sk x.1) (v' (aux x.1)) (List.ofFn x.2) = .ok qs ∧ D (aux x.1) qs)| ≤
        rlweAdvantage (Q := levelQ l 0) (k := m * (l.length + 1)) W variance (fun ω => keyRing N (sk ω)) aux
          (shiftedChosen P M fun z cts => D z (pieces (l.length + 1) cts)) +
        rlweAdvantage (Q := levelQ l 0) (k := m * (l.length + 1)) W variance (fun ω => keyRing N (sk ω)) aux
          (shiftedChosen P M' fun z cts => D z (pieces (l.length + 1) cts)) := by
  choose p M hp hq using fun z hist => Privacy.query h pr (hv z hist).1 (hv z hist).2.1 (hv z hist).2.2
  choose p' M' hp' hq' using fun z hist => Privacy.query h pr (hv' z hist).1 (hv' z hist).2.1 (hv' z hist).2.2
  refine ⟨fun z hist => M z (pieces (l.length + 1) hist) ⟨hist.length % (l.length + 1), Nat.mod_lt _ (by omega)⟩,
    fun z hist => M' z (pieces (l.length + 1) hist) ⟨hist.length % (l.length + 1), Nat.mod_lt _ (by omega)⟩, fun {Ω sk} hk m W aux D => ?_⟩
  have e := Adaptive.queries_prob h hk pr hv1 hv2 hp hq m W aux D
  have e' := Adaptive.queries_prob h hk pr hv1 hv2 hp' hq' m W aux D
  have key := c100_encryptions h hk pr hv1 hv2 (m * (l.length + 1)) W
    (p := fun z hist => p z (pieces (l.length + 1) hist) ⟨hist.length % (l.length + 1), Nat.mod_lt _ (by omega)⟩)
    (p' := fun z hist => p' z (pieces (l.length + 1) hist) ⟨hist.length % (l.length + 1), Nat.mod_lt _ (by omega)⟩)
    (M := fun z hist => M z (pieces (l.length + 1) hist) ⟨hist.length % (l.length + 1), Nat.mod_lt _ (by omega)⟩)
    (M' := fun z hist => M' z (pieces (l.length + 1) hist) ⟨hist.length % (l.length + 1), Nat.mod_lt _ (by omega)⟩)
    (fun z hist => hp z _ _) (fun z hist => hp' z _ _) aux fun z cts => D z (pieces (l.length + 1) cts)
  exact (congrArg₂ (fun a b : ℝ => |a - b|) e e').trans_le key

/-- Three queries for coordinates that depend on the queries so far, under a generated key, for a server that has the evaluation keys: the hypotheses
are met, and the queries are made. -/
example : ∃ (P : BfvParameters) (sk : Words 20 → SecretKey) (v v' : Res Evaluation → List (List BfvCipherText) → List Nat)
    (M M' : Res Evaluation → List BfvCipherText → Rg 8), IsParams 8 17 Ex.mods 10 P ∧
    (∀ ω, SecretKey.generate .release P (stream ω) = .ok (sk ω)) ∧
    (∀ z q q', v z [] = [0, 0, 0, 1, 0, 1] ∧ v z [q] = [0, 0, 0, 0, 0, 1] ∧ v z [q, q'] = [1, 0, 0, 0, 0, 1] ∧ v' z [q, q'] = [0, 1, 0, 0, 1, 1]) ∧
    (∀ ω (c : Fin 3 → EncCoins 8 Ex.mods (Ex.mods.length + 1) 5) z, ∃ qs, adaptiveQueries .release P (sk ω) (v z) (List.ofFn c) = .ok qs ∧ qs.length = 3) ∧
    ∀ D : Res Evaluation → List (List BfvCipherText) → Prop,
    |prob (fun x : Words 20 × (Fin 3 → EncCoins 8 Ex.mods (Ex.mods.length + 1) 5) => ∃ qs, adaptiveQueries .release P (sk x.1)
        (v (Evaluation.build .release (sk x.1) P (fun _ _ _ _ => 0) (fun _ _ i => i) (fun _ _ _ => 0) (fun _ _ _ => 0) (fun _ i => i) fun _ i => i))
        (List.ofFn x.2) = .ok qs ∧
        D (Evaluation.build .release (sk x.1) P (fun _ _ _ _ => 0) (fun _ _ i => i) (fun _ _ _ => 0) (fun _ _ _ => 0) (fun _ i => i) fun _ i => i) qs) -
      prob (fun x : Words 20 × (Fin 3 → EncCoins 8 Ex.mods (Ex.mods.length + 1) 5) => ∃ qs, adaptiveQueries .release P (sk x.1)
        (v' (Evaluation.build .release (sk x.1) P (fun _ _ _ _ => 0) (fun _ _ i => i) (fun _ _ _ => 0) (fun _ _ _ => 0) (fun _ i => i) fun _ i => i))
        (List.ofFn x.2) = .ok qs ∧
        D (Evaluation.build .release (sk x.1) P (fun _ _ _ _ => 0) (fun _ _ i => i) (fun _ _ _ => 0) (fun _ _ _ => 0) (fun _ i => i) fun _ i => i) qs)| ≤
      rlweAdvantage (Q := levelQ Ex.mods 0) (k := 3 * (Ex.mods.length + 1)) 5 10 (fun ω => keyRing 8 (sk ω)) (fun ω => Evaluation.build .release (sk ω) P
        (fun _ _ _ _ => 0) (fun _ _ i => i) (fun _ _ _ => 0) (fun _ _ _ => 0) (fun _ i => i) fun _ i => i)
        (shiftedChosen P M fun z cts => D z (pieces (Ex.mods.length + 1) cts)) +
      rlweAdvantage (Q := levelQ Ex.mods 0) (k := 3 * (Ex.mods.length + 1)) 5 10 (fun ω => keyRing 8 (sk ω)) (fun ω => Evaluation.build .release (sk ω) P
        (fun _ _ _ _ => 0) (fun _ _ i => i) (fun _ _ _ => 0) (fun _ _ _ => 0) (fun _ i => i) fun _ i => i)
        (shiftedChosen P M' fun z cts => D z (pieces (Ex.mods.length + 1) cts)) := by
  obtain ⟨P, sk, h, -⟩ := Ex.setup_key
  choose sk h1 h2 _ using fun ω : Words 20 => c30_generate h .release (by norm_num) (by norm_num) (stream_lt ω)
  let v : Res Evaluation → List (List BfvCipherText) → List Nat := fun _ hist =>
    match hist with
    | [] => [0, 0, 0, 1, 0, 1]
    | [_] => [0, 0, 0, 0, 0, 1]
    | _ => [1, 0, 0, 0, 0, 1]
  have hv : ∀ z hist, (v z hist).length ≤ 8 ∧ 4 ≤ (v z hist).length ∧ ∀ x ∈ v z hist, x < 2 ^ 64 := by
    intro z hist
    match hist with
    | [] => exact (by decide : ([0, 0, 0, 1, 0, 1] : List Nat).length ≤ 8 ∧ 4 ≤ ([0, 0, 0, 1, 0, 1] : List Nat).length ∧ ∀ x ∈ [0, 0, 0, 1, 0, 1], x < 2 ^ 64)
    | [_] => exact (by decide : ([0, 0, 0, 0, 0, 1] : List Nat).length ≤ 8 ∧ 4 ≤ ([0, 0, 0, 0, 0, 1] : List Nat).length ∧ ∀ x ∈ [0, 0, 0, 0, 0, 1], x < 2 ^ 64)
    | _ :: _ :: _ => exact (by decide : ([1, 0, 0, 0, 0, 1] : List Nat).length ≤ 8 ∧ 4 ≤ ([1, 0, 0, 0, 0, 1] : List Nat).length ∧ ∀ x ∈ [1, 0, 0, 0, 0, 1], x < 2 ^ 64)
  obtain ⟨M, M', hM⟩ := c100_queries h .release (by norm_num) (by norm_num) (v := v) (v' := fun _ _ => [0, 1, 0, 0, 1, 1]) hv
    (fun _ _ => ⟨by decide, by decide, by decide⟩)
  refine ⟨P, sk, v, fun _ _ => [0, 1, 0, 0, 1, 1], M, M', h, h1, fun _ _ _ => ⟨rfl, rfl, rfl, rfl⟩, fun ω c z => ?_, fun D => hM h2 3 5 (fun ω =>
    Evaluation.build .release (sk ω) P (fun _ _ _ _ => 0) (fun _ _ i => i) (fun _ _ _ => 0) (fun _ _ _ => 0) (fun _ i => i) fun _ i => i) D⟩
  choose p M hp hq using fun hist => Privacy.query h .release (hv z hist).1 (hv z hist).2.1 (hv z hist).2.2
  obtain ⟨F, -, e2, e3⟩ := Adaptive.queries h (h2 ω) .release (by norm_num) (by norm_num) hp hq (List.ofFn c)
  exact ⟨_, e3, by unfold pieces; rw [List.length_map, List.length_range, e2, Nat.mul_div_cancel _ (by omega), List.length_ofFn]⟩

end OnionPIR
