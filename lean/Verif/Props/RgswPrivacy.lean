import Verif.Props.Privacy
import Verif.Spec.RgswPrivacy
/-
Property C82: telling RGSW ciphertexts of two messages apart is at most as easy as telling RLWE samples from uniform pairs, although one half
of them encrypts multiples of the secret key.
-/
namespace OnionPIR
open Rg Poly Spec Privacy

variable {N t : Nat} {l : List Nat} {variance : Nat} {P : BfvParameters}

namespace RgswPrivacy

variable {Ω Aux Obj : Type} {i k W : Nat}

/-- The mask of a choice of values of level `i`. -/
noncomputable def maskOf (h : IsParams N t l variance P) (hi : i < l.length) (r : Rows N l i) : Rg N :=
  (c77_mask h hi (Rows.tapeAt (moduli_pos h) r)).1.choose

theorem maskOf_spec (h : IsParams N t l variance P) (hi : i < l.length) (r : Rows N l i) : IsMask P i r.tape (maskOf h hi r) :=
  (c77_mask h hi (Rows.tapeAt (moduli_pos h) r)).1.choose_spec

theorem maskOf_bijective (h : IsParams N t l variance P) (hi : i < l.length) :
    Function.Bijective fun r : Rows N l i => toRq (levelQ l i) (maskOf h hi r) := by
  constructor
  · intro r r' hr
    have h1 : Cong (levelQ l i) (maskOf h hi r) (maskOf h hi r') := (toRq_eq _ _).mp hr
    have h2 := ((c77_mask h hi (Rows.tapeAt (moduli_pos h) r)).2 _ (maskOf h hi r') (maskOf_spec h hi r)).mpr h1
    exact (c77_mask_uniform h hi (maskOf h hi r')).unique h2 (maskOf_spec h hi r')
  · intro x
    obtain ⟨a, rfl⟩ := Ideal.Quotient.mk_surjective x
    obtain ⟨r, hr, -⟩ := c77_mask_uniform h hi a
    exact ⟨r, (toRq_eq _ _).mpr (((c77_mask h hi (Rows.tapeAt (moduli_pos h) r)).2 _ a (maskOf_spec h hi r)).mp hr)⟩

/-- Choices of values are residue classes. -/
noncomputable def maskEquiv (h : IsParams N t l variance P) (hi : i < l.length) : Rows N l i ≃ Rq N (levelQ l i) :=
  Equiv.ofBijective _ (maskOf_bijective h hi)

/-- The pairs made of the coins when `u.1 + u.2 s` is added to the first components. -/
noncomputable def pairs (h : IsParams N t l variance P) (hi : i < l.length) (s : Rg N) (u : Fin k → Rg N × Rg N) (c : KskCoins N l i k W)
    (j : Fin k) : Rq N (levelQ l i) × Rq N (levelQ l i) :=
  (toRq (levelQ l i) (cbdRing N variance (stream (c j).2) - maskOf h hi (c j).1 * s + ((u j).1 + (u j).2 * s)), toRq (levelQ l i) (maskOf h hi (c j).1))

/-- Adding an affine function of the key to RLWE samples is shifting both components. -/
theorem affine (h : IsParams N t l variance P) (hi : i < l.length) (s : Ω → Rg N) (u : Fin k → Rg N × Rg N)
    (F : Ω → (Fin k → Rq N (levelQ l i) × Rq N (levelQ l i)) → Prop) :
    prob (fun x : Ω × KskCoins N l i k W => F x.1 (pairs h hi (s x.1) u x.2)) =
      prob fun x : Ω × (Fin k → Rq N (levelQ l i) × Words W) =>
        F x.1 fun j => rlweSamples variance (s x.1) x.2 j + (toRq (levelQ l i) (u j).1, toRq (levelQ l i) (u j).2) := by
  refine prob_equiv (Equiv.prodCongr (Equiv.refl Ω) (Equiv.piCongrRight fun j =>
    Equiv.prodCongr ((maskEquiv h hi).trans (Equiv.subRight (toRq (levelQ l i) (u j).2))) (Equiv.refl _))) ?_
  rintro ⟨ω, c⟩
  have : pairs h hi (s ω) u c = fun j => rlweSamples variance (s ω) (fun j =>
      ((maskEquiv h hi (c j).1 - toRq (levelQ l i) (u j).2 : Rq N (levelQ l i)), (c j).2)) j +
        (toRq (levelQ l i) (u j).1, toRq (levelQ l i) (u j).2) := by
    funext j
    have hm : maskEquiv h hi (c j).1 = toRq (levelQ l i) (maskOf h hi (c j).1) := rfl
    unfold pairs rlweSamples
    dsimp only
    rw [hm]
    ext
    · simp only [Prod.fst_add, map_add, map_sub, map_mul]
      ring
    · simp only [Prod.snd_add]
      ring
  dsimp only
  rw [this]
  rfl

/-- On uniform pairs a shift does not matter. -/
theorem ideal {Q : Nat} (u : Fin k → Rg N × Rg N) (aux : Ω → Aux) (St : (Fin k → Rq N Q × Rq N Q) → Obj → Prop) (D : Aux → Obj → Prop) :
    (prob fun x : Ω × (Fin k → Rq N Q × Rq N Q) => shiftedBy St u D (aux x.1) x.2) =
      prob fun x : Ω × (Fin k → Rq N Q × Rq N Q) => ∃ o, St x.2 o ∧ D (aux x.1) o :=
  prob_equiv (Equiv.prodCongr (Equiv.refl Ω) (Equiv.addRight fun j => (toRq Q (u j).1, toRq Q (u j).2))) fun _ => Iff.rfl

/-- The general form: two procedures whose results store RLWE samples plus affine functions of the key. -/
theorem bound (h : IsParams N t l variance P) (hi : i < l.length) {St : (Fin k → Rq N (levelQ l i) × Rq N (levelQ l i)) → Obj → Prop}
    (hSt : ∀ x, ∃! o, St x o) {s : Ω → Rg N} {E E' : Ω → KskCoins N l i k W → Res Obj} {u u' : Fin k → Rg N × Rg N}
    (hE : ∀ ω c, ∃ o, E ω c = .ok o ∧ St (pairs h hi (s ω) u c) o) (hE' : ∀ ω c, ∃ o, E' ω c = .ok o ∧ St (pairs h hi (s ω) u' c) o)
    (aux : Ω → Aux) (D : Aux → Obj → Prop) :
    |prob (fun x : Ω × KskCoins N l i k W => ∃ o, E x.1 x.2 = .ok o ∧ D (aux x.1) o) -
      prob (fun x : Ω × KskCoins N l i k W => ∃ o, E' x.1 x.2 = .ok o ∧ D (aux x.1) o)| ≤
      rlweAdvantage (Q := levelQ l i) W variance s aux (shiftedBy St u D) + rlweAdvantage (Q := levelQ l i) W variance s aux (shiftedBy St u' D) := by
  have key : ∀ (E : Ω → KskCoins N l i k W → Res Obj) (u : Fin k → Rg N × Rg N),
      (∀ ω c, ∃ o, E ω c = .ok o ∧ St (pairs h hi (s ω) u c) o) →
      prob (fun x : Ω × KskCoins N l i k W => ∃ o, E x.1 x.2 = .ok o ∧ D (aux x.1) o) =
      prob fun x : Ω × (Fin k → Rq N (levelQ l i) × Words W) => shiftedBy St u D (aux x.1) (rlweSamples variance (s x.1) x.2) := by
    intro E u hE
    refine Eq.trans ?_ (affine h hi s u fun ω y => ∃ o, St y o ∧ D (aux ω) o)
    refine prob_equiv (Equiv.refl _) fun x => ?_
    obtain ⟨o, h1, h2⟩ := hE x.1 x.2
    constructor
    · rintro ⟨o', h3, h4⟩
      rw [h1] at h3
      cases h3
      exact ⟨o, h2, h4⟩
    · rintro ⟨o', h3, h4⟩
      rw [(hSt _).unique h3 h2] at h4
      exact ⟨o, h1, h4⟩
  unfold rlweAdvantage
  rw [key E u hE, key E' u' hE']
  exact Privacy.bound (ideal u aux St D) (ideal u' aux St D)

theorem storedKsk (h : IsParams N t l variance P) (hi : i < l.length) {n : Nat} (x : Fin n → Rq N (levelQ l i) × Rq N (levelQ l i)) :
    ∃! key, StoredKsk P i x key := by
  obtain ⟨K, ext, rfl, hw, rfl, rfl, rfl⟩ := BfvP.params h
  obtain ⟨L, hL⟩ := hw.levels i hi
  have hx : ∀ j, ∃ f : Rg (2 ^ K) × Rg (2 ^ K), toRq (levelQ P.ciphertextModuli i) f.1 = (x j).1 ∧ toRq (levelQ P.ciphertextModuli i) f.2 = (x j).2 := by
    intro j
    obtain ⟨f0, h0⟩ := Ideal.Quotient.mk_surjective (x j).1
    obtain ⟨f1, h1⟩ := Ideal.Quotient.mk_surjective (x j).2
    exact ⟨(f0, f1), h0, h1⟩
  choose f hf using hx
  have hF : ∀ g : Fin n → Rg (2 ^ K), List.Forall₂ (PolyAt P i) (List.ofFn g) ((List.ofFn g).map (enc L.qCtx .ntt)) := by
    intro g
    rw [List.forall₂_map_right_iff, List.forall₂_same]
    exact fun _ _ => (BfvP.polyAt_iff hL _ _).mpr rfl
  refine ⟨⟨P, (List.ofFn fun j => (f j).1).map (enc L.qCtx .ntt), (List.ofFn fun j => (f j).2).map (enc L.qCtx .ntt), L.qCtx, L.qCtx⟩,
    ⟨_, _, hf, rfl, hL.q, rfl, hF _, hF _⟩, ?_⟩
  rintro ⟨p, c0, c1, kc, cc⟩ ⟨g0, g1, hg, e1, e2, e3, e4, e5⟩
  dsimp only at e1 e2 e3 e4 e5
  rw [hL.q] at e2
  cases e2
  have q : ∀ a b : Fin n → Rg (2 ^ K), (∀ j, toRq (levelQ P.ciphertextModuli i) (a j) = toRq (levelQ P.ciphertextModuli i) (b j)) →
      (List.ofFn a).map (enc L.qCtx .ntt) = (List.ofFn b).map (enc L.qCtx .ntt) := by
    intro a b hab
    rw [List.map_ofFn, List.map_ofFn]
    congr 1
    funext j
    have := (toRq_eq _ _).mp (hab j)
    unfold Cong at this
    rw [← BfvP.levelQ_eq hL, ← enc_eq_iff hL.wf.ctx (r := .ntt)] at this
    exact this
  rw [e1, e3, BfvP.forall₂_polyAt hL e4, BfvP.forall₂_polyAt hL e5, q g0 _ fun j => (hg j).1.trans (hf j).1.symm,
    q g1 _ fun j => (hg j).2.trans (hf j).2.symm]

theorem storedRgsw (h : IsParams N t l variance P) (hi : i < l.length) {n : Nat} (x : Fin (n + n) → Rq N (levelQ l i) × Rq N (levelQ l i)) :
    ∃! g, StoredRgsw P i x g := by
  obtain ⟨k0, h0, u0⟩ := storedKsk h hi fun j => x (Fin.castAdd n j)
  obtain ⟨k1, h1, u1⟩ := storedKsk h hi fun j => x (Fin.natAdd n j)
  refine ⟨⟨k0, k1⟩, ⟨h0, h1⟩, ?_⟩
  rintro ⟨g0, g1⟩ ⟨e0, e1⟩
  rw [u0 g0 e0, u1 g1 e1]

theorem tape_at (h : IsParams N t l variance P) (c : KskCoins N l i k W) (j : Nat) : TapeAt l i (c.tape j) := by
  unfold KskCoins.tape
  split
  · exact Rows.tapeAt (moduli_pos h) _
  · intro a b ha
    rw [getD_eq_getElem' _ _ _ ha]
    exact moduli_pos h _ (List.mem_of_mem_take (List.getElem_mem ha))

theorem words_lt (c : KskCoins N l i k W) (j m : Nat) : c.words j m < 2 ^ 64 := by
  unfold KskCoins.words
  split
  · exact stream_lt _ _
  · norm_num

/-- The key made of the coins stores the pairs. -/
theorem ksk (h : IsParams N t l variance P) (hi : i < l.length) (pr : Profile) (hv1 : 1 ≤ variance) (hv2 : variance ≤ 16) :
    ∃ g : Nat → ℤ, (∀ j, j < (levelModuli l i).length → IsGarner l i j (g j)) ∧
      ∀ {sk : SecretKey} (_ : IsKey P sk) {p : Poly} {u v : Rg N} (_ : PolyAt P i (u + v * keyRing N sk) p) {W : Nat}
        (c : KskCoins N l i (levelModuli l i).length W), ∃ key, Ksk.new pr sk p i i c.tape c.words = .ok key ∧
        StoredKsk P i (pairs h hi (keyRing N sk) (fun j => (u * (g j : Rg N), v * (g j : Rg N))) c) key := by
  have h' := h
  obtain ⟨K, ext, rfl, hw, rfl, rfl, rfl⟩ := BfvP.params h
  obtain ⟨L, hL⟩ := hw.levels i hi
  refine ⟨fun j => Ksk.garnerAt L.qCtx j, fun j hj => BfvP.garner_isGarner hL (by rw [BfvP.len_level hL]; exact hj), ?_⟩
  intro sk hk p u v hp W c
  have hsk := BfvP.key hw hk
  have hP := hk.1
  subst hP
  have ha : ∀ j, ∃ a : Rg (2 ^ K), Poly.random L.qCtx (c.tape j) .ntt = enc L.qCtx .ntt a ∧
      ∀ hj : j < (levelModuli sk.params.ciphertextModuli i).length, a = maskOf h' hi (c ⟨j, hj⟩).1 := by
    intro j
    rcases Nat.lt_or_ge j (levelModuli sk.params.ciphertextModuli i).length with hj | hj
    · refine ⟨maskOf h' hi (c ⟨j, hj⟩).1, ?_, fun _ => rfl⟩
      have := (Rlwe.mask_iff hL _ _).mp (maskOf_spec h' hi (c ⟨j, hj⟩).1)
      unfold KskCoins.tape
      rw [dif_pos hj]
      exact this
    · obtain ⟨a, ha⟩ := (c77_mask h' hi (tape_at h' c j)).1
      exact ⟨a, (Rlwe.mask_iff hL _ _).mp ha, fun hj' => by omega⟩
  choose a ha1 ha2 using ha
  rw [(BfvP.polyAt_iff hL _ _).mp hp]
  refine ⟨_, Ksk.new_exact hsk pr hL hv1 hv2 _ ha1 (words_lt c), ?_⟩
  refine ⟨fun j => cbdRing (2 ^ K) sk.params.variance (stream (c j).2) - maskOf h' hi (c j).1 * keyRing (2 ^ K) sk +
      (u * ((Ksk.garnerAt L.qCtx j : ℤ) : Rg (2 ^ K)) + v * ((Ksk.garnerAt L.qCtx j : ℤ) : Rg (2 ^ K)) * keyRing (2 ^ K) sk),
    fun j => maskOf h' hi (c j).1, fun j => ⟨rfl, rfl⟩, rfl, hL.q, rfl, ?_, ?_⟩
  · dsimp only
    rw [BfvP.len_level hL]
    have : ∀ (n : Nat) (f : Fin n → Rg (2 ^ K)) (g : Nat → Rg (2 ^ K)), (∀ j : Fin n, f j = g j) → List.Forall₂ (PolyAt sk.params i) (List.ofFn f)
        ((List.range n).map fun j => enc L.qCtx .ntt (g j)) := by
      intro n f g hfg
      have : List.ofFn f = (List.range n).map g := by
        apply List.ext_getElem (by simp)
        intro j h1 h2
        rw [List.getElem_ofFn, List.getElem_map, List.getElem_range]
        exact hfg _
      rw [this, List.forall₂_map_left_iff, List.forall₂_map_right_iff, List.forall₂_same]
      exact fun j _ => (BfvP.polyAt_iff hL _ _).mpr rfl
    refine this _ _ _ fun j => ?_
    rw [ha2 j j.2]
    have hw : c.words j = stream (c j).2 := by unfold KskCoins.words; rw [dif_pos j.2]
    rw [hw]
    show _ = cbdRing (2 ^ K) sk.params.variance (stream (c j).2) - maskOf h' hi (c j).1 * keyRing (2 ^ K) sk + _
    ring
  · dsimp only
    rw [BfvP.len_level hL]
    have : List.ofFn (fun j => maskOf h' hi (c j).1) = (List.range (levelModuli sk.params.ciphertextModuli i).length).map a := by
      apply List.ext_getElem (by simp)
      intro j h1 h2
      rw [List.getElem_ofFn, List.getElem_map, List.getElem_range]
      exact (ha2 j (by simpa using h1)).symm
    rw [this, List.forall₂_map_left_iff, List.forall₂_map_right_iff, List.forall₂_same]
    exact fun j _ => (BfvP.polyAt_iff hL _ _).mpr rfl

/-- The RGSW ciphertext made of the coins stores the pairs. -/
theorem rgsw (h : IsParams N t l variance P) (hi : i < l.length) (pr : Profile) (hv1 : 1 ≤ variance) (hv2 : variance ≤ 16) :
    ∃ g : Nat → ℤ, (∀ j, j < (levelModuli l i).length → IsGarner l i j (g j)) ∧
      ∀ {sk : SecretKey} (_ : IsKey P sk) {p : Poly} {m : Rg N} (_ : PolyAt P i m p) {W : Nat}
        (c : KskCoins N l i ((levelModuli l i).length + (levelModuli l i).length) W), ∃ ct,
        RgswCt.encryptPoly pr sk p c.left.tape c.right.tape c.left.words c.right.words = .ok ct ∧
        StoredRgsw P i (pairs h hi (keyRing N sk) (rgswShift g m) c) ct := by
  obtain ⟨g, hg, hks⟩ := ksk h hi pr hv1 hv2
  refine ⟨g, hg, fun {sk} hk {p m} hp {W} c => ?_⟩
  obtain ⟨q, hq⟩ := c33_exists_poly h hi (0 + m * keyRing N sk)
  obtain ⟨k0, a1, a2⟩ := hks hk hq c.left
  obtain ⟨k1, b1, b2⟩ := hks hk (u := m) (v := 0) (by rw [zero_mul, add_zero]; exact hp) c.right
  refine ⟨⟨k0, k1⟩, ?_, ?_, ?_⟩
  · obtain ⟨K, ext, rfl, hw, rfl, rfl, rfl⟩ := BfvP.params h
    obtain ⟨L, hL⟩ := hw.levels i hi
    have hsk := BfvP.key hw hk
    have hP := hk.1
    subst hP
    have hc := hL.wf.ctx
    rw [(BfvP.polyAt_iff hL _ _).mp hq, zero_add, mul_comm] at a1
    rw [(BfvP.polyAt_iff hL _ _).mp hp] at b1 ⊢
    unfold RgswCt.encryptPoly
    rw [rassert_ok (show (enc L.qCtx .ntt m).representation = .ntt from rfl), res_ok_bind, show (enc L.qCtx .ntt m).context = L.qCtx from rfl,
      BfvParameters.ctxLevel_at hw hL, show unwrapR (some i) = .ok i from rfl, res_ok_bind, SecretKey.polyNtt_enc hsk pr hc, res_ok_bind,
      mul_enc hc, res_ok_bind, show sk.ring K * m = keyRing (2 ^ K) sk * m from rfl, a1, res_ok_bind, b1, res_ok_bind]
  · have : (fun j => pairs h hi (keyRing N sk) (rgswShift g m) c (Fin.castAdd _ j)) =
        pairs h hi (keyRing N sk) (fun j => ((0 : Rg N) * (g j : Rg N), m * (g j : Rg N))) c.left := by
      funext j
      unfold pairs rgswShift
      rw [Fin.addCases_left]
      simp only [zero_mul]
      rfl
    rw [this]
    exact a2
  · have : (fun j => pairs h hi (keyRing N sk) (rgswShift g m) c (Fin.natAdd _ j)) =
        pairs h hi (keyRing N sk) (fun j => (m * (g j : Rg N), (0 : Rg N) * (g j : Rg N))) c.right := by
      funext j
      unfold pairs rgswShift
      rw [Fin.addCases_right]
      simp only [zero_mul]
      rfl
    rw [this]
    exact b2

end RgswPrivacy

open RgswPrivacy

/-- C82: pairs of residue classes are stored by exactly one key-switching key, and by exactly one RGSW ciphertext. -/
theorem c82_stored (h : IsParams N t l variance P) {i : Nat} (hi : i < l.length) {n : Nat} :
    (∀ x : Fin n → Rq N (levelQ l i) × Rq N (levelQ l i), ∃! key, StoredKsk P i x key) ∧
      ∀ x : Fin (n + n) → Rq N (levelQ l i) × Rq N (levelQ l i), ∃! g, StoredRgsw P i x g := ⟨storedKsk h hi, storedRgsw h hi⟩

/-- C82: key-switching keys whose sources are affine functions `u + v s` and `u' + v' s` of the secret key: for every predicate `D`, every
way of drawing the key and every further information `aux` about it the probabilities that `D` holds of the two keys differ by at most the
advantages of two explicit distinguishers of RLWE samples from uniform pairs. -/
theorem c82_ksk (h : IsParams N t l variance P) {i : Nat} (hi : i < l.length) (pr : Profile) (hv1 : 1 ≤ variance) (hv2 : variance ≤ 16) :
    ∃ g : Nat → ℤ, (∀ j, j < (levelModuli l i).length → IsGarner l i j (g j)) ∧
      ∀ {Ω Aux : Type} {sk : Ω → SecretKey} (_ : ∀ ω, IsKey P (sk ω)) (W : Nat) {p p' : Ω → Poly} {u v u' v' : Rg N}
        (_ : ∀ ω, PolyAt P i (u + v * keyRing N (sk ω)) (p ω)) (_ : ∀ ω, PolyAt P i (u' + v' * keyRing N (sk ω)) (p' ω)) (aux : Ω → Aux)
        (D : Aux → Ksk → Prop),
        |prob (fun x : Ω × KskCoins N l i (levelModuli l i).length W =>
            ∃ key, Ksk.new pr (sk x.1) (p x.1) i i x.2.tape x.2.words = .ok key ∧ D (aux x.1) key) -
          prob (fun x : Ω × KskCoins N l i (levelModuli l i).length W =>
            ∃ key, Ksk.new pr (sk x.1) (p' x.1) i i x.2.tape x.2.words = .ok key ∧ D (aux x.1) key)| ≤
          rlweAdvantage (Q := levelQ l i) W variance (fun ω => keyRing N (sk ω)) aux
            (shiftedBy (StoredKsk P i) (fun j : Fin (levelModuli l i).length => (u * (g j : Rg N), v * (g j : Rg N))) D) +
          rlweAdvantage (Q := levelQ l i) W variance (fun ω => keyRing N (sk ω)) aux
            (shiftedBy (StoredKsk P i) (fun j : Fin (levelModuli l i).length => (u' * (g j : Rg N), v' * (g j : Rg N))) D) := by
  obtain ⟨g, hg, hks⟩ := ksk h hi pr hv1 hv2
  refine ⟨g, hg, fun {Ω Aux sk} hk W {p p' u v u' v'} hp hp' aux D => ?_⟩
  exact RgswPrivacy.bound h hi (storedKsk h hi) (E := fun ω c => Ksk.new pr (sk ω) (p ω) i i c.tape c.words)
    (E' := fun ω c => Ksk.new pr (sk ω) (p' ω) i i c.tape c.words) (fun ω c => hks (hk ω) (hp ω) c) (fun ω c => hks (hk ω) (hp' ω) c) aux D

/-- C82: RGSW ciphertexts made by `encrypt_poly` of two messages, of any level: for every predicate `D`, every way of drawing the key and
every further information `aux` about it the probabilities that `D` holds of the two ciphertexts differ by at most the advantages of two
explicit distinguishers of RLWE samples from uniform pairs. No assumption about encryptions of the key under itself is needed. -/
theorem c82_rgsw (h : IsParams N t l variance P) {i : Nat} (hi : i < l.length) (pr : Profile) (hv1 : 1 ≤ variance) (hv2 : variance ≤ 16) :
    ∃ g : Nat → ℤ, (∀ j, j < (levelModuli l i).length → IsGarner l i j (g j)) ∧
      ∀ {Ω Aux : Type} {sk : Ω → SecretKey} (_ : ∀ ω, IsKey P (sk ω)) (W : Nat) {p p' : Poly} {m m' : Rg N} (_ : PolyAt P i m p)
        (_ : PolyAt P i m' p') (aux : Ω → Aux) (D : Aux → RgswCt → Prop),
        |prob (fun x : Ω × KskCoins N l i ((levelModuli l i).length + (levelModuli l i).length) W =>
            ∃ ct, RgswCt.encryptPoly pr (sk x.1) p x.2.left.tape x.2.right.tape x.2.left.words x.2.right.words = .ok ct ∧ D (aux x.1) ct) -
          prob (fun x : Ω × KskCoins N l i ((levelModuli l i).length + (levelModuli l i).length) W =>
            ∃ ct, RgswCt.encryptPoly pr (sk x.1) p' x.2.left.tape x.2.right.tape x.2.left.words x.2.right.words = .ok ct ∧ D (aux x.1) ct)| ≤
          rlweAdvantage (Q := levelQ l i) W variance (fun ω => keyRing N (sk ω)) aux
            (shiftedBy (StoredRgsw (n := (levelModuli l i).length) P i) (rgswShift g m) D) +
          rlweAdvantage (Q := levelQ l i) W variance (fun ω => keyRing N (sk ω)) aux
            (shiftedBy (StoredRgsw (n := (levelModuli l i).length) P i) (rgswShift g m') D) := by
  obtain ⟨g, hg, hr⟩ := rgsw h hi pr hv1 hv2
  refine ⟨g, hg, fun {Ω Aux sk} hk W {p p' m m'} hp hp' aux D => ?_⟩
  exact RgswPrivacy.bound h hi (storedRgsw h hi) (E := fun ω c => RgswCt.encryptPoly pr (sk ω) p c.left.tape c.right.tape c.left.words c.right.words)
    (E' := fun ω c => RgswCt.encryptPoly pr (sk ω) p' c.left.tape c.right.tape c.left.words c.right.words)
    (fun ω c => hr (hk ω) hp c) (fun ω c => hr (hk ω) hp' c) aux D

/-- `encrypt` is `encrypt_poly` of the values of the plaintext. -/
theorem RgswPrivacy.encrypt_eq (h : IsParams N t l variance P) (pr : Profile) {pt : Plaintext} (hp : pt.params = P) (hlev : pt.level < l.length)
    (hlen : pt.values.length ≤ N) (hv : ∀ x ∈ pt.values, x < 2 ^ 64) : ∃ p, PolyAt P pt.level (msgRing N pt.values) p ∧
      ∀ {sk : SecretKey} (_ : IsKey P sk) (a0 a1 : Nat → Nat → Nat → Nat) (r0 r1 : Nat → Nat → Nat),
        RgswCt.encrypt pr sk pt a0 a1 r0 r1 = RgswCt.encryptPoly pr sk p a0 a1 r0 r1 := by
  obtain ⟨K, ext, rfl, hw, rfl, rfl, rfl⟩ := BfvP.params h
  obtain ⟨L, hL⟩ := hw.levels _ hlev
  have hc := hL.wf.ctx
  refine ⟨enc L.qCtx .ntt (msgRing (2 ^ K) pt.values), (BfvP.polyAt_iff hL _ _).mpr rfl, fun {sk} hk a0 a1 r0 r1 => ?_⟩
  have hP := hk.1
  unfold RgswCt.encrypt RgswCt.encryptPoly
  rw [rassert_ok (show sk.params = pt.params by rw [hP, hp]), res_ok_bind, hP, idx_of hL.q, res_ok_bind, Poly.tryFromVecU64_ok hc pr hlen hv,
    res_ok_bind, toNtt_enc hc, res_ok_bind, ← BfvP.msgRing_eq,
    rassert_ok (show (enc L.qCtx .ntt (msgRing (2 ^ K) pt.values)).representation = .ntt from rfl), res_ok_bind,
    show (enc L.qCtx .ntt (msgRing (2 ^ K) pt.values)).context = L.qCtx from rfl, BfvParameters.ctxLevel_at hw hL,
    show unwrapR (some pt.level) = .ok pt.level from rfl, res_ok_bind]

/-- C82: the same for RGSW ciphertexts made by `encrypt` of two plaintexts. -/
theorem c82_encrypt (h : IsParams N t l variance P) {i : Nat} (hi : i < l.length) (pr : Profile) (hv1 : 1 ≤ variance) (hv2 : variance ≤ 16) :
    ∃ g : Nat → ℤ, (∀ j, j < (levelModuli l i).length → IsGarner l i j (g j)) ∧
      ∀ {Ω Aux : Type} {sk : Ω → SecretKey} (_ : ∀ ω, IsKey P (sk ω)) (W : Nat) {pt pt' : Plaintext} (_ : pt.params = P) (_ : pt'.params = P)
        (_ : pt.level = i) (_ : pt'.level = i) (_ : pt.values.length ≤ N) (_ : pt'.values.length ≤ N) (_ : ∀ x ∈ pt.values, x < 2 ^ 64)
        (_ : ∀ x ∈ pt'.values, x < 2 ^ 64) (aux : Ω → Aux) (D : Aux → RgswCt → Prop),
        |prob (fun x : Ω × KskCoins N l i ((levelModuli l i).length + (levelModuli l i).length) W =>
            ∃ ct, RgswCt.encrypt pr (sk x.1) pt x.2.left.tape x.2.right.tape x.2.left.words x.2.right.words = .ok ct ∧ D (aux x.1) ct) -
          prob (fun x : Ω × KskCoins N l i ((levelModuli l i).length + (levelModuli l i).length) W =>
            ∃ ct, RgswCt.encrypt pr (sk x.1) pt' x.2.left.tape x.2.right.tape x.2.left.words x.2.right.words = .ok ct ∧ D (aux x.1) ct)| ≤
          rlweAdvantage (Q := levelQ l i) W variance (fun ω => keyRing N (sk ω)) aux
            (shiftedBy (StoredRgsw (n := (levelModuli l i).length) P i) (rgswShift g (msgRing N pt.values)) D) +
          rlweAdvantage (Q := levelQ l i) W variance (fun ω => keyRing N (sk ω)) aux
            (shiftedBy (StoredRgsw (n := (levelModuli l i).length) P i) (rgswShift g (msgRing N pt'.values)) D) := by
  obtain ⟨g, hg, hr⟩ := c82_rgsw h hi pr hv1 hv2
  refine ⟨g, hg, fun {Ω Aux sk} hk W {pt pt'} hp hp' hl hl' hn hn' hw hw' aux D => ?_⟩
  subst hl
  obtain ⟨p, hp1, hp2⟩ := RgswPrivacy.encrypt_eq h pr hp hi hn hw
  obtain ⟨p', hp1', hp2'⟩ := RgswPrivacy.encrypt_eq h pr hp' (by rw [hl']; exact hi) hn' hw'
  rw [hl'] at hp1'
  simp only [hp2 (hk _), hp2' (hk _)]
  exact hr hk W hp1 hp1' aux D

/-- RGSW ciphertexts of `X` and of `1 + X^3` under a generated key, at level 1: the hypotheses are met. -/
example : ∃ (P : BfvParameters) (sk : Words 20 → SecretKey) (g : Nat → ℤ), IsParams 8 17 Ex.mods 10 P ∧
    (∀ ω, SecretKey.generate .release P (stream ω) = .ok (sk ω)) ∧ (levelModuli Ex.mods 1).length = 2 ∧ ∀ D : Unit → RgswCt → Prop,
    |prob (fun x : Words 20 × KskCoins 8 Ex.mods 1 (2 + 2) 5 => ∃ ct, RgswCt.encrypt .release (sk x.1) ⟨P, 1, .poly, [0, 1]⟩ x.2.left.tape
        x.2.right.tape x.2.left.words x.2.right.words = .ok ct ∧ D () ct) -
      prob (fun x : Words 20 × KskCoins 8 Ex.mods 1 (2 + 2) 5 => ∃ ct, RgswCt.encrypt .release (sk x.1) ⟨P, 1, .poly, [1, 0, 0, 1]⟩ x.2.left.tape
        x.2.right.tape x.2.left.words x.2.right.words = .ok ct ∧ D () ct)| ≤
      rlweAdvantage (Q := levelQ Ex.mods 1) 5 10 (fun ω => keyRing 8 (sk ω)) (fun _ => ()) (shiftedBy (StoredRgsw (n := 2) P 1)
        (rgswShift g (msgRing 8 [0, 1])) D) +
      rlweAdvantage (Q := levelQ Ex.mods 1) 5 10 (fun ω => keyRing 8 (sk ω)) (fun _ => ()) (shiftedBy (StoredRgsw (n := 2) P 1)
        (rgswShift g (msgRing 8 [1, 0, 0, 1])) D) := by
  obtain ⟨P, sk, h, -⟩ := Ex.setup_key
  choose sk h1 h2 _ using fun ω : Words 20 => c30_generate h .release (by norm_num) (by norm_num) (stream_lt ω)
  obtain ⟨g, -, hg⟩ := c82_encrypt h (i := 1) (by decide) .release (by norm_num) (by norm_num)
  exact ⟨P, sk, g, h, h1, rfl, fun D => hg h2 5 (pt := ⟨P, 1, .poly, [0, 1]⟩) (pt' := ⟨P, 1, .poly, [1, 0, 0, 1]⟩) rfl rfl rfl rfl (by simp) (by simp)
    (by simp) (by simp) (fun _ => ()) D⟩

/-- The stored form of a key-switching key at level 1, where two moduli are left. -/
example : ∃ P, IsParams 8 17 Ex.mods 10 P ∧
    ∃! key, StoredKsk P 1 (fun _ : Fin 2 => ((3, 5) : Rq 8 (levelQ Ex.mods 1) × Rq 8 (levelQ Ex.mods 1))) key := by
  obtain ⟨P, h⟩ := Ex.exists_params
  exact ⟨P, h, (c82_stored h (by decide)).1 _⟩

end OnionPIR
