import Verif.Props.Rlwe
import Verif.Props.Tests
import Verif.Spec.Privacy
/-
Property C79: telling the ciphertexts of two lists of messages apart, in particular two queries, is at most as easy as telling RLWE samples
from uniform pairs.
-/
namespace OnionPIR
open Rg Poly Spec

variable {N t : Nat} {l : List Nat} {variance : Nat} {P : BfvParameters}

namespace Privacy

theorem prob_equiv {Ω Ω' : Type} (e : Ω ≃ Ω') {E : Ω → Prop} {E' : Ω' → Prop} (h : ∀ ω, E ω ↔ E' (e ω)) : prob E = prob E' := by
  unfold prob
  rw [Nat.card_congr e, Nat.card_congr (e.subtypeEquiv h)]

theorem toRq_eq {Q : Nat} (f g : Rg N) : toRq Q f = toRq Q g ↔ Cong Q f g := by
  unfold Cong
  rw [Ideal.Quotient.eq, Ideal.mem_span_singleton]

theorem moduli_pos (h : IsParams N t l variance P) : ∀ q ∈ l, 0 < q := fun q hq => by have := h.2.2.1 q hq; omega

theorem pos (h : IsParams N t l variance P) : 0 < l.length := by
  obtain ⟨K, ext, rfl, hw, rfl, rfl, rfl⟩ := BfvP.params h
  exact List.length_pos_iff.mpr hw.ne

/-- The residue class of the mask of a choice of values. -/
noncomputable def maskOf (h : IsParams N t l variance P) (r : Rows N l 0) : Rg N :=
  (c77_mask h (pos h) (Rows.tapeAt (moduli_pos h) r)).1.choose

theorem maskOf_spec (h : IsParams N t l variance P) (r : Rows N l 0) : IsMask P 0 r.tape (maskOf h r) :=
  (c77_mask h (pos h) (Rows.tapeAt (moduli_pos h) r)).1.choose_spec

theorem maskOf_bijective (h : IsParams N t l variance P) :
    Function.Bijective fun r : Rows N l 0 => toRq (levelQ l 0) (maskOf h r) := by
  constructor
  · intro r r' hr
    have h1 : Cong (levelQ l 0) (maskOf h r) (maskOf h r') := (toRq_eq _ _).mp hr
    have h2 := ((c77_mask h (pos h) (Rows.tapeAt (moduli_pos h) r)).2 _ (maskOf h r') (maskOf_spec h r)).mpr h1
    exact (c77_mask_uniform h (pos h) (maskOf h r')).unique h2 (maskOf_spec h r')
  · intro x
    obtain ⟨a, rfl⟩ := Ideal.Quotient.mk_surjective x
    obtain ⟨r, hr, -⟩ := c77_mask_uniform h (pos h) a
    exact ⟨r, (toRq_eq _ _).mpr (((c77_mask h (pos h) (Rows.tapeAt (moduli_pos h) r)).2 _ a (maskOf_spec h r)).mp hr)⟩

/-- Choices of values are residue classes. -/
noncomputable def maskEquiv (h : IsParams N t l variance P) : Rows N l 0 ≃ Rq N (levelQ l 0) := Equiv.ofBijective _ (maskOf_bijective h)

/-- Every pair is stored by exactly one ciphertext. -/
theorem stored (h : IsParams N t l variance P) (x : Rq N (levelQ l 0) × Rq N (levelQ l 0)) : ∃! ct, Stored P x ct := by
  have hl0 := pos h
  obtain ⟨K, ext, rfl, hw, rfl, rfl, rfl⟩ := BfvP.params h
  obtain ⟨L, hL⟩ := hw.levels 0 hl0
  obtain ⟨x0, x1⟩ := x
  obtain ⟨f0, rfl⟩ := Ideal.Quotient.mk_surjective x0
  obtain ⟨f1, rfl⟩ := Ideal.Quotient.mk_surjective x1
  refine ⟨⟨P, [enc L.qCtx .ntt f0, enc L.qCtx .ntt f1], 0⟩, ⟨f0, f1, rfl, rfl, (BfvP.isCt_iff hL _ _).mpr ⟨rfl, rfl, rfl⟩⟩, ?_⟩
  rintro ⟨p, cts, lev⟩ ⟨g0, g1, e0, e1, hct⟩
  obtain ⟨h1, h2, h3⟩ := (BfvP.isCt_iff hL _ _).mp hct
  dsimp only at h1 h2 h3 e0 e1
  rw [toRq_eq] at e0 e1
  unfold Cong at e0 e1
  rw [← BfvP.levelQ_eq hL, ← enc_eq_iff hL.wf.ctx (r := .ntt)] at e0 e1
  rw [h1, h2, h3, List.map_cons, List.map_cons, List.map_nil, e0, e1]

theorem stream_lt {W : Nat} (w : Words W) (i : Nat) : stream w i < 2 ^ 64 := by
  unfold stream
  split
  · exact (w _).2
  · norm_num

end Privacy

open Privacy

/-- C79: the residue ring has `Q^N` elements, so that the probabilities below are proper. -/
theorem c79_card (h : IsParams N t l variance P) : Nat.card (Rq N (levelQ l 0)) = levelQ l 0 ^ N ∧ 0 < levelQ l 0 := by
  have hq := moduli_pos h
  constructor
  · rw [← Nat.card_congr (maskEquiv h), Nat.card_pi]
    have h1 : ∀ k : Fin (levelModuli l 0).length, Nat.card (Fin N → Fin ((levelModuli l 0).getD k 1)) = (levelModuli l 0).getD k 1 ^ N := by
      intro k
      rw [Nat.card_fun, Nat.card_fin, Nat.card_fin]
    rw [Finset.prod_congr rfl fun k _ => h1 k, Finset.prod_pow]
    congr 1
    unfold levelQ
    rw [← List.prod_ofFn]
    congr 1
    apply List.ext_getElem (by simp)
    intro k h1 h2
    rw [List.getElem_ofFn]
    exact getD_eq_getElem' _ _ _ _
  · unfold levelQ
    exact Nat.pos_of_ne_zero (List.prod_ne_zero fun h0 => by have := hq 0 (List.mem_of_mem_take h0); omega)

/-- C79: every pair of residue classes is stored by exactly one ciphertext, so that distinguishers of ciphertexts are distinguishers of
pairs. -/
theorem c79_stored (h : IsParams N t l variance P) (x : Rq N (levelQ l 0) × Rq N (levelQ l 0)) : ∃! ct, Stored P x ct := stored h x

/-- C79: `encrypt_poly` stores an RLWE sample plus `(M, 0)`. -/
theorem c79_encrypt_poly (h : IsParams N t l variance P) {sk : SecretKey} (hk : IsKey P sk) (pr : Profile) (hv1 : 1 ≤ variance)
    (hv2 : variance ≤ 16) {p : Poly} {M : Rg N} (hp : PolyAt P 0 M p) {aTape : Nat → Nat → Nat} {a : Rg N} (ha : IsMask P 0 aTape a)
    {rng : Nat → Nat} (hr : ∀ i, rng i < 2 ^ 64) :
    ∃ ct, sk.encryptPoly pr p aTape rng = .ok ct ∧ IsCt P 0 [cbdRing N variance rng - a * keyRing N sk + M, a] ct := by
  obtain ⟨K, ext, rfl, hw, rfl, rfl, rfl⟩ := BfvP.params h
  have hl0 : 0 < P.ciphertextModuli.length := List.length_pos_iff.mpr hw.ne
  obtain ⟨L, hL⟩ := hw.levels 0 hl0
  have hsk := BfvP.key hw hk
  have hp' := hk.1
  subst hp'
  rw [(BfvP.polyAt_iff hL _ _).mp hp]
  exact ⟨_, SecretKey.encryptPoly_exact hsk pr hL.wf.ctx hv1 hv2 M ((Rlwe.mask_iff hL _ _).mp ha) hr,
    (BfvP.isCt_iff hL _ _).mpr ⟨rfl, rfl, rfl⟩⟩

namespace Privacy

variable {Ω Aux : Type} {k W : Nat}

/-- Encrypting with coins and asking `D` is asking the shifted distinguisher about RLWE samples. -/
theorem real_eq (h : IsParams N t l variance P) {sk : Ω → SecretKey} (hv1 : 1 ≤ variance) (hv2 : variance ≤ 16) (M : Fin k → Rg N)
    (aux : Ω → Aux) (D : Aux → (Fin k → BfvCipherText) → Prop) {E : Ω × EncCoins N l k W → Prop}
    (hE : ∀ ω (c : EncCoins N l k W) (cts : Fin k → BfvCipherText),
      (∀ j, ∀ a : Rg N, IsMask P 0 (c j).1.tape a →
        IsCt P 0 [cbdRing N variance (stream (c j).2) - a * keyRing N (sk ω) + M j, a] (cts j)) → (E (ω, c) ↔ D (aux ω) cts)) :
    prob E = prob fun x : Ω × (Fin k → Rq N (levelQ l 0) × Words W) =>
      shifted P M D (aux x.1) (rlweSamples variance (keyRing N (sk x.1)) x.2) := by
  refine prob_equiv (Equiv.prodCongr (Equiv.refl Ω) (Equiv.piCongrRight fun _ => Equiv.prodCongr (maskEquiv h) (Equiv.refl _))) ?_
  rintro ⟨ω, c⟩
  have hst : ∀ j, ∃! ct, Stored P ((rlweSamples variance (keyRing N (sk ω)) (fun j => (maskEquiv h (c j).1, (c j).2)) j) +
      (toRq (levelQ l 0) (M j), 0)) ct := fun j => stored h _
  have key : ∀ cts : Fin k → BfvCipherText, (∀ j, Stored P ((rlweSamples variance (keyRing N (sk ω))
      (fun j => (maskEquiv h (c j).1, (c j).2)) j) + (toRq (levelQ l 0) (M j), 0)) (cts j)) → (E (ω, c) ↔ D (aux ω) cts) := by
    intro cts hcts
    apply hE
    intro j a ha
    have ha' : Cong (levelQ l 0) (maskOf h (c j).1) a :=
      ((c77_mask h (pos h) (Rows.tapeAt (moduli_pos h) (c j).1)).2 _ a (maskOf_spec h _)).mp ha
    have hm : maskEquiv h (c j).1 = toRq (levelQ l 0) a := (toRq_eq _ _).mpr ha'
    -- the ciphertext with these components is the stored one
    have hl0 := pos h
    obtain ⟨ct, hct⟩ : ∃ ct, IsCt P 0 [cbdRing N variance (stream (c j).2) - a * keyRing N (sk ω) + M j, a] ct := by
      obtain ⟨K, ext, rfl, hw, rfl, rfl, rfl⟩ := BfvP.params h
      obtain ⟨L, hL⟩ := hw.levels 0 hl0
      exact ⟨⟨P, _, 0⟩, (BfvP.isCt_iff hL _ _).mpr ⟨rfl, rfl, rfl⟩⟩
    have hs : Stored P ((rlweSamples variance (keyRing N (sk ω)) (fun j => (maskEquiv h (c j).1, (c j).2)) j) +
        (toRq (levelQ l 0) (M j), 0)) ct := by
      refine ⟨_, _, ?_, ?_, hct⟩
      · unfold rlweSamples
        dsimp only
        rw [hm]
        simp [toRq]
      · unfold rlweSamples
        dsimp only
        rw [hm]
        simp
    rw [(hst j).unique (hcts j) hs]
    exact hct
  choose cts hcts huniq using hst
  constructor
  · intro hE'
    exact ⟨cts, hcts, (key cts hcts).mp hE'⟩
  · rintro ⟨cts', h1, h2⟩
    exact (key cts' h1).mpr h2

/-- On uniform pairs the shift does not matter. -/
theorem ideal_eq (P : BfvParameters) {Q : Nat} (M : Fin k → Rg N) (aux : Ω → Aux) (D : Aux → (Fin k → BfvCipherText) → Prop) :
    (prob fun x : Ω × (Fin k → Rq N Q × Rq N Q) => shifted P M D (aux x.1) x.2) =
      prob fun x : Ω × (Fin k → Rq N Q × Rq N Q) => shifted P (fun _ => 0) D (aux x.1) x.2 := by
  refine prob_equiv (Equiv.prodCongr (Equiv.refl Ω) (Equiv.addRight fun j => (toRq Q (M j), 0))) ?_
  rintro ⟨ω, x⟩
  unfold shifted
  have : ∀ j, (x + fun j => (toRq Q (M j), (0 : Rq N Q))) j + (toRq Q 0, 0) = x j + (toRq Q (M j), 0) := by
    intro j
    have h0 : toRq Q (0 : Rg N) = 0 := map_zero _
    rw [h0, ← Prod.zero_eq_mk, add_zero]
    rfl
  simp only [Equiv.prodCongr_apply, Prod.map, Equiv.refl_apply, Equiv.coe_addRight, this]

theorem bound {r r' i i' z : ℝ} (h : i = z) (h' : i' = z) : |r - r'| ≤ |r - i| + |r' - i'| := by
  rw [h, h', abs_sub_comm r' z]
  exact abs_sub_le r z r'

end Privacy

/-- C79: for every distinguisher `D` of ciphertexts, every way of drawing the key and every further information `aux` about it, such as
evaluation keys, the probabilities that `D` accepts the encryptions of the messages `M` and of the messages `M'` differ by at most the
advantages of two explicit distinguishers of RLWE samples from uniform pairs that are given the same `aux`. -/
theorem c79_encryptions (h : IsParams N t l variance P) {Ω Aux : Type} {sk : Ω → SecretKey} (hk : ∀ ω, IsKey P (sk ω)) (pr : Profile)
    (hv1 : 1 ≤ variance) (hv2 : variance ≤ 16) {k : Nat} (W : Nat) {p p' : Fin k → Poly} {M M' : Fin k → Rg N}
    (hp : ∀ j, PolyAt P 0 (M j) (p j)) (hp' : ∀ j, PolyAt P 0 (M' j) (p' j)) (aux : Ω → Aux)
    (D : Aux → (Fin k → BfvCipherText) → Prop) :
    |prob (fun x : Ω × EncCoins N l k W => ∃ cts : Fin k → BfvCipherText,
        (∀ j, (sk x.1).encryptPoly pr (p j) (x.2 j).1.tape (stream (x.2 j).2) = .ok (cts j)) ∧ D (aux x.1) cts) -
      prob (fun x : Ω × EncCoins N l k W => ∃ cts : Fin k → BfvCipherText,
        (∀ j, (sk x.1).encryptPoly pr (p' j) (x.2 j).1.tape (stream (x.2 j).2) = .ok (cts j)) ∧ D (aux x.1) cts)| ≤
      rlweAdvantage (Q := levelQ l 0) W variance (fun ω => keyRing N (sk ω)) aux (shifted P M D) +
      rlweAdvantage (Q := levelQ l 0) W variance (fun ω => keyRing N (sk ω)) aux (shifted P M' D) := by
  have key : ∀ (p : Fin k → Poly) (M : Fin k → Rg N), (∀ j, PolyAt P 0 (M j) (p j)) →
      prob (fun x : Ω × EncCoins N l k W => ∃ cts : Fin k → BfvCipherText,
        (∀ j, (sk x.1).encryptPoly pr (p j) (x.2 j).1.tape (stream (x.2 j).2) = .ok (cts j)) ∧ D (aux x.1) cts) =
      prob fun x : Ω × (Fin k → Rq N (levelQ l 0) × Words W) =>
        shifted P M D (aux x.1) (rlweSamples variance (keyRing N (sk x.1)) x.2) := by
    intro p M hp
    refine real_eq h hv1 hv2 M aux D ?_
    intro ω c cts hcts
    have henc : ∀ j, (sk ω).encryptPoly pr (p j) (c j).1.tape (stream (c j).2) = .ok (cts j) := by
      intro j
      obtain ⟨ct, h1, h2⟩ := c79_encrypt_poly h (hk ω) pr hv1 hv2 (hp j) (maskOf_spec h (c j).1) (stream_lt (c j).2)
      have h3 := hcts j _ (maskOf_spec h (c j).1)
      have : ct = cts j := (stored h (toRq _ _, toRq _ _)).unique ⟨_, _, rfl, rfl, h2⟩ ⟨_, _, rfl, rfl, h3⟩
      rw [h1, this]
    constructor
    · rintro ⟨cts', h1, h2⟩
      have : cts' = cts := funext fun j => Except.ok.inj ((h1 j).symm.trans (henc j))
      exact this ▸ h2
    · exact fun h2 => ⟨cts, henc, h2⟩
  unfold rlweAdvantage
  rw [key p M hp, key p' M' hp']
  exact bound (ideal_eq P M aux D) (ideal_eq P M' aux D)

namespace Privacy

theorem N_pos (h : IsParams N t l variance P) : 0 < N := by
  obtain ⟨K, ext, rfl, -⟩ := BfvP.params h
  positivity

theorem ctx0 (h : IsParams N t l variance P) : ∃ c, P.qCtxs[0]? = some c ∧ IsContext N l c := by
  obtain ⟨-, -, -, -, -, -, -, ext, -, -, h1⟩ := c51_levels h
  obtain ⟨q, e, h2, -, h3, -⟩ := h1 0 (pos h)
  have : levelModuli l 0 = l := by unfold levelModuli; simp
  rw [this] at h3
  exact ⟨q, h2, h3⟩

theorem plain (h : IsParams N t l variance P) (pr : Profile) {v : List Nat} (hv : v.length ≤ N) :
    Plaintext.new pr P v 0 .poly = .ok ⟨P, 0, .poly, v ++ List.replicate (N - v.length) 0⟩ := by
  have hd : P.degree = N := (c51_levels h).1
  unfold Plaintext.new Plaintext.encode copyPrefix
  simp [hd, hv, res_ok_bind]

theorem toPoly (h : IsParams N t l variance P) (pr : Profile) {pt : Plaintext} (hp : pt.params = P) (hlev : pt.level = 0)
    (hlen : pt.values.length ≤ N) (hval : ∀ x ∈ pt.values, x < 2 ^ 64) : ∃ p, ∃ M : Rg N, pt.toPoly pr = .ok p ∧ PolyAt P 0 M p := by
  have hl0 := pos h
  obtain ⟨K, ext, rfl, hw, rfl, rfl, rfl⟩ := BfvP.params h
  obtain ⟨L, hL⟩ := hw.levels 0 hl0
  obtain ⟨M, hM, -⟩ := Plaintext.toPoly_enc (p := pt) (by rw [hp]; exact hw) (by rw [hp, hlev]; exact hL) pr hlen hval
  exact ⟨_, M, hM, (BfvP.polyAt_iff hL _ _).mpr rfl⟩

theorem mulBig (h : IsParams N t l variance P) (pr : Profile) {p : Poly} {f : Rg N} (hp : PolyAt P 0 f p) (b : Nat) :
    ∃ s, ∃ g : Rg N, p.mulBig pr b = .ok s ∧ PolyAt P 0 g s := by
  obtain ⟨c, hc, hd⟩ := hp
  obtain ⟨c', hc', hci⟩ := ctx0 h
  rw [hc] at hc'
  cases hc'
  obtain ⟨s, h1, h2⟩ := c21_mul_big hci pr hd b
  exact ⟨s, ofCoeffs N fun k => b * cf f k, h1, c, hc, den_congr hci (by simp) h2 fun k hk => by rw [cf_ofCoeffs (N_pos h) _ hk]⟩

/-- A query is `l.length + 1` encryptions of polynomials determined by the encoded coordinates. -/
theorem query (h : IsParams N t l variance P) (pr : Profile) {v : List Nat} (hv : v.length ≤ N) (hv4 : 4 ≤ v.length)
    (hv2 : ∀ x ∈ v, x < 2 ^ 64) : ∃ p : Fin (l.length + 1) → Poly, ∃ M : Fin (l.length + 1) → Rg N, (∀ j, PolyAt P 0 (M j) (p j)) ∧
      ∀ (sk : SecretKey) (W : Nat) (c : EncCoins N l (l.length + 1) W) (cts : Fin (l.length + 1) → BfvCipherText),
        (∀ j, sk.encryptPoly pr (p j) (c j).1.tape (stream (c j).2) = .ok (cts j)) →
        Tests.queryCts pr P sk v (c.tape 0) (c.words 0) (fun j => c.tape (j + 1)) (fun j => c.words (j + 1)) = .ok (List.ofFn cts) := by
  obtain ⟨c, hc, hci⟩ := ctx0 h
  obtain ⟨p0, M0, hp0, hM0⟩ := toPoly h pr (pt := ⟨P, 0, .poly, v ++ List.replicate (N - v.length) 0⟩) rfl rfl (by simp; omega) (fun x hx => by
    rcases List.mem_append.mp hx with hx | hx
    · exact hv2 x hx
    · rw [(List.mem_replicate.mp hx).2]; norm_num)
  obtain ⟨q, q1, q2⟩ := c25_from_u64 hci pr (a := v.drop 4) (by simp; omega) (fun x hx => hv2 x (List.mem_of_mem_drop hx))
  have q3 := TestParams.denotes_msg hci (N_pos h) (by simp) q2
  obtain ⟨q', r1, -, -, -, -, r2⟩ := c20_round_trip hci pr q2.1 (r := .powerBasis) (r' := .ntt) (by simp) (by simp) q2.2.1 q2.2.2.1
  have hq' : PolyAt P 0 (msgRing N (v.drop 4)) q' := ⟨c, hc, (r2 _).mp q3⟩
  have hg : c.rns.garner.length = l.length := by
    obtain ⟨K, -, hw, h7⟩ := RqP.ctx hci
    rw [hw.core.rns.g_len, ← hw.core.m64, h7]
  choose ps Ms hps hMs using fun j : Fin l.length => mulBig h pr hq' (c.rns.garner.getD j 0)
  refine ⟨Fin.cons p0 ps, Fin.cons M0 Ms, fun j => ?_, fun sk W co cts hcts => ?_⟩
  · refine Fin.cases ?_ (fun j => ?_) j
    · exact hM0
    · exact hMs j
  · have ht : ∀ j : Fin (l.length + 1), co.tape j = (co j).1.tape := fun j => by unfold EncCoins.tape; rw [dif_pos j.2]
    have hw : ∀ j : Fin (l.length + 1), co.words j = stream (co j).2 := fun j => by unfold EncCoins.words; rw [dif_pos j.2]
    have h0 := hcts 0
    rw [Fin.cons_zero, ← ht, ← hw] at h0
    have hrest : Tests.garnerCts pr c sk q' (fun j => co.tape (j + 1)) (fun j => co.words (j + 1)) = .ok (List.ofFn fun j => cts j.succ) := by
      unfold Tests.garnerCts
      rw [mapR_ok (g := fun x => if hx : x.2 < l.length then cts (Fin.succ ⟨x.2, hx⟩) else cts 0)]
      · congr 1
        apply List.ext_getElem (by simp [hg])
        intro j h1 h2
        have hj : j < l.length := by simpa using h2
        simp [hj]
      · rintro ⟨x, j⟩ hx
        obtain ⟨hx1, hx2⟩ := List.mem_zipIdx' hx
        dsimp only at hx1 hx2 ⊢
        have hj : j < l.length := by omega
        rw [dif_pos hj]
        have h1 := hps ⟨j, hj⟩
        have h2 := hcts (Fin.succ ⟨j, hj⟩)
        rw [Fin.cons_succ, ← ht, ← hw] at h2
        dsimp only at h1
        rw [getD_eq_getElem' _ _ _ hx1, ← hx2] at h1
        rw [h1, res_ok_bind]
        exact h2
    unfold Tests.queryCts SecretKey.encrypt
    rw [plain h pr hv, res_ok_bind, hp0, res_ok_bind]
    rw [show sk.encryptPoly pr p0 (co.tape 0) (co.words 0) = .ok (cts 0) from h0, res_ok_bind, idx_of hc, res_ok_bind, if_pos hv4, res_ok_bind]
    dsimp only
    rw [q1, res_ok_bind, r1, res_ok_bind, hrest, res_ok_bind, List.ofFn_succ]

end Privacy

/-- C79: for two lists of encoded coordinates, every way of drawing the key, every further information `aux` about it and every predicate
`D` of the server's view, the probabilities that `D` holds of the ciphertexts of the two queries differ by at most the advantages of two
distinguishers of `l.length + 1` RLWE samples from uniform pairs. `M` and `M'` depend on the coordinates only, not on `D`. -/
theorem c79_query (h : IsParams N t l variance P) (pr : Profile) (hv1 : 1 ≤ variance) (hv2 : variance ≤ 16) {v v' : List Nat}
    (hv : v.length ≤ N) (hv4 : 4 ≤ v.length) (hvw : ∀ x ∈ v, x < 2 ^ 64) (hv' : v'.length ≤ N) (hv4' : 4 ≤ v'.length)
    (hvw' : ∀ x ∈ v', x < 2 ^ 64) :
    ∃ M M' : Fin (l.length + 1) → Rg N, ∀ {Ω Aux : Type} {sk : Ω → SecretKey} (_ : ∀ ω, IsKey P (sk ω)) (W : Nat) (aux : Ω → Aux)
      (D : Aux → List BfvCipherText → Prop),
      |prob (fun x : Ω × EncCoins N l (l.length + 1) W => ∃ qs, Tests.queryCts pr P (sk x.1) v (x.2.tape 0) (x.2.words 0)
          (fun j => x.2.tape (j + 1)) (fun j => x.2.words (j + 1)) = .ok qs ∧ D (aux x.1) qs) -
        prob (fun x : Ω × EncCoins N l (l.length + 1) W => ∃ qs, Tests.queryCts pr P (sk x.1) v' (x.2.tape 0) (x.2.words 0)
          (fun j => x.2.tape (j + 1)) (fun j => x.2.words (j + 1)) = .ok qs ∧ D (aux x.1) qs)| ≤
        rlweAdvantage (Q := levelQ l 0) W variance (fun ω => keyRing N (sk ω)) aux (shifted P M fun z cts => D z (List.ofFn cts)) +
        rlweAdvantage (Q := levelQ l 0) W variance (fun ω => keyRing N (sk ω)) aux (shifted P M' fun z cts => D z (List.ofFn cts)) := by
  obtain ⟨p, M, hp, hq⟩ := Privacy.query h pr hv hv4 hvw
  obtain ⟨p', M', hp', hq'⟩ := Privacy.query h pr hv' hv4' hvw'
  refine ⟨M, M', fun {Ω Aux sk} hk W aux D => ?_⟩
  have key : ∀ (v : List Nat) (p : Fin (l.length + 1) → Poly) (M : Fin (l.length + 1) → Rg N), (∀ j, PolyAt P 0 (M j) (p j)) →
      (∀ (sk : SecretKey) (W : Nat) (c : EncCoins N l (l.length + 1) W) (cts : Fin (l.length + 1) → BfvCipherText),
        (∀ j, sk.encryptPoly pr (p j) (c j).1.tape (stream (c j).2) = .ok (cts j)) →
        Tests.queryCts pr P sk v (c.tape 0) (c.words 0) (fun j => c.tape (j + 1)) (fun j => c.words (j + 1)) = .ok (List.ofFn cts)) →
      (fun x : Ω × EncCoins N l (l.length + 1) W => ∃ qs, Tests.queryCts pr P (sk x.1) v (x.2.tape 0) (x.2.words 0)
          (fun j => x.2.tape (j + 1)) (fun j => x.2.words (j + 1)) = .ok qs ∧ D (aux x.1) qs) =
      fun x : Ω × EncCoins N l (l.length + 1) W => ∃ cts : Fin (l.length + 1) → BfvCipherText,
        (∀ j, (sk x.1).encryptPoly pr (p j) (x.2 j).1.tape (stream (x.2 j).2) = .ok (cts j)) ∧ D (aux x.1) (List.ofFn cts) := by
    intro v p M hp hq
    funext ⟨ω, c⟩
    choose cts h1 h2 using fun j => c79_encrypt_poly h (hk ω) pr hv1 hv2 (hp j) (maskOf_spec h (c j).1) (stream_lt (c j).2)
    have hqs := hq (sk ω) W c cts h1
    apply propext
    constructor
    · rintro ⟨qs, h3, h4⟩
      obtain rfl := Except.ok.inj (hqs.symm.trans h3)
      exact ⟨cts, h1, h4⟩
    · rintro ⟨cts', h3, h4⟩
      exact ⟨_, hq (sk ω) W c cts' h3, h4⟩
  rw [key v p M hp hq, key v' p' M' hp' hq']
  exact c79_encryptions h hk pr hv1 hv2 W hp hp' aux fun z cts => D z (List.ofFn cts)

/-- Two queries under a generated key, for a server that also has the evaluation keys: the hypotheses are met. -/
example : ∃ (P : BfvParameters) (sk : Words 20 → SecretKey) (M M' : Fin (Ex.mods.length + 1) → Rg 8), IsParams 8 17 Ex.mods 10 P ∧
    (∀ ω, SecretKey.generate .release P (stream ω) = .ok (sk ω)) ∧ ∀ D : Res Evaluation → List BfvCipherText → Prop,
    |prob (fun x : Words 20 × EncCoins 8 Ex.mods (Ex.mods.length + 1) 5 => ∃ qs, Tests.queryCts .release P (sk x.1) [0, 0, 0, 1, 0, 1] (x.2.tape 0)
        (x.2.words 0) (fun j => x.2.tape (j + 1)) (fun j => x.2.words (j + 1)) = .ok qs ∧
        D (Evaluation.build .release (sk x.1) P (fun _ _ _ _ => 0) (fun _ _ i => i) (fun _ _ _ => 0) (fun _ _ _ => 0) (fun _ i => i)
          fun _ i => i) qs) -
      prob (fun x : Words 20 × EncCoins 8 Ex.mods (Ex.mods.length + 1) 5 => ∃ qs, Tests.queryCts .release P (sk x.1) [0, 1, 0, 0, 1, 1] (x.2.tape 0)
        (x.2.words 0) (fun j => x.2.tape (j + 1)) (fun j => x.2.words (j + 1)) = .ok qs ∧
        D (Evaluation.build .release (sk x.1) P (fun _ _ _ _ => 0) (fun _ _ i => i) (fun _ _ _ => 0) (fun _ _ _ => 0) (fun _ i => i)
          fun _ i => i) qs)| ≤
      rlweAdvantage (Q := levelQ Ex.mods 0) 5 10 (fun ω => keyRing 8 (sk ω)) (fun ω => Evaluation.build .release (sk ω) P
        (fun _ _ _ _ => 0) (fun _ _ i => i) (fun _ _ _ => 0) (fun _ _ _ => 0) (fun _ i => i) fun _ i => i)
        (shifted P M fun z cts => D z (List.ofFn cts)) +
      rlweAdvantage (Q := levelQ Ex.mods 0) 5 10 (fun ω => keyRing 8 (sk ω)) (fun ω => Evaluation.build .release (sk ω) P
        (fun _ _ _ _ => 0) (fun _ _ i => i) (fun _ _ _ => 0) (fun _ _ _ => 0) (fun _ i => i) fun _ i => i)
        (shifted P M' fun z cts => D z (List.ofFn cts)) := by
  obtain ⟨P, sk, h, -⟩ := Ex.setup_key
  choose sk h1 h2 _ using fun ω : Words 20 => c30_generate h .release (by norm_num) (by norm_num) (stream_lt ω)
  obtain ⟨M, M', hM⟩ := c79_query h .release (by norm_num) (by norm_num) (v := [0, 0, 0, 1, 0, 1]) (v' := [0, 1, 0, 0, 1, 1]) (by decide)
    (by decide) (by decide) (by decide) (by decide) (by decide)
  exact ⟨P, sk, M, M', h, h1, fun D => hM h2 5 (fun ω => Evaluation.build .release (sk ω) P
    (fun _ _ _ _ => 0) (fun _ _ i => i) (fun _ _ _ => 0) (fun _ _ _ => 0) (fun _ i => i) fun _ i => i) D⟩

/-- The ring of the three example moduli, and the stored form of the pair `(3, 5)`. -/
example : ∃ P, IsParams 8 17 Ex.mods 10 P ∧ Nat.card (Rq 8 (levelQ Ex.mods 0)) = levelQ Ex.mods 0 ^ 8 ∧
    ∃! ct, Stored P ((3, 5) : Rq 8 (levelQ Ex.mods 0) × Rq 8 (levelQ Ex.mods 0)) ct := by
  obtain ⟨P, h⟩ := Ex.exists_params
  exact ⟨P, h, (c79_card h).1, c79_stored h (3, 5)⟩

end OnionPIR
