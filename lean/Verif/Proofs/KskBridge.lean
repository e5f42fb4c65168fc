import Verif.Proofs.BfvBridge
import Verif.Proofs.Ksk
import Verif.Spec.Ksk
/- Bridge between the specification of key-switching keys and the internal predicate `Ksk.Holds`. -/
namespace OnionPIR
open Rg Poly Spec
namespace BfvP
variable {K : Nat} {P : BfvParameters} {ext : List Nat} {i : Nat} {L : BfvLevel}

theorem garner_unique (hL : P.At K ext i L) {j : Nat} (hj : j < L.qCtx.moduli64.length) {g : ℤ}
    (hg : IsGarner P.ciphertextModuli i j g) : (L.qCtx.Q : ℤ) ∣ g - Ksk.garnerAt L.qCtx j := by
  have hc := hL.wf.ctx
  unfold RqContext.Q
  rw [← RqContext.prod_dvd_int hc.cop]
  intro q hq
  obtain ⟨k, hk, rfl⟩ := List.getElem_of_mem hq
  have hmods := hL.wf.mods
  have h1 := hg k (by unfold levelModuli; rw [← hmods]; exact hk)
  have hw := hc.core.rns
  have hm := hc.core.m64
  have e1 : (levelModuli P.ciphertextModuli i).getD k 1 = L.qCtx.moduli64[k] := by
    unfold levelModuli; rw [← hmods, getD_eq_getElem' _ _ _ hk]
  rw [e1] at h1
  have e2 : (L.qCtx.moduli64[k] : ℤ) ∣ (Ksk.garnerAt L.qCtx j : ℤ) - if k = j then 1 else 0 := by
    have e3 : L.qCtx.rns.moduliU64.getD k 1 = L.qCtx.moduli64[k] := by rw [← hm, getD_eq_getElem' _ _ _ hk]
    unfold Ksk.garnerAt
    split_ifs with hkj
    · subst hkj
      have := hw.g_one k (by rw [← hm]; exact hk)
      rw [e3] at this
      have h4 := Nat.div_add_mod (L.qCtx.rns.garner.getD k 0) L.qCtx.moduli64[k]
      rw [this] at h4
      rw [← h4]
      push_cast
      simp
    · have := hw.g_zero j k (by rw [← hm]; exact hj) (by rw [← hm]; exact hk) (fun h => hkj h.symm)
      rw [e3] at this
      rw [sub_zero]
      exact_mod_cast this
  have := dvd_sub h1 e2
  refine this.trans (dvd_of_eq ?_)
  ring

theorem garner_isGarner (hL : P.At K ext i L) {j : Nat} (hj : j < L.qCtx.moduli64.length) :
    IsGarner P.ciphertextModuli i j (Ksk.garnerAt L.qCtx j) := by
  have hc := hL.wf.ctx
  have hmods := hL.wf.mods
  have hw := hc.core.rns
  have hm := hc.core.m64
  intro k hk
  unfold levelModuli at hk ⊢
  rw [← hmods] at hk ⊢
  unfold Ksk.garnerAt
  rw [hm] at hk hj ⊢
  split_ifs with hkj
  · subst hkj
    have := hw.g_one k hk
    have h4 := Nat.div_add_mod (L.qCtx.rns.garner.getD k 0) (L.qCtx.rns.moduliU64.getD k 1)
    rw [this] at h4
    rw [← h4]
    push_cast
    simp
  · have := hw.g_zero j k hj hk (fun h => hkj h.symm)
    rw [sub_zero]
    exact_mod_cast this

/-- The public form of an RLWE pair. -/
theorem rlwe_iff (hL : P.At K ext i L) {j : Nat} (hj : j < L.qCtx.moduli64.length) {s m b a : Rg (2 ^ K)} {B : ℤ} :
    RlweGarner P.ciphertextModuli i j s m B b a ↔
      ∃ e : Rg (2 ^ K), Bdd B e ∧ ((L.qCtx.Q : ℤ) : Rg (2 ^ K)) ∣ b + a * s - (m * ((Ksk.garnerAt L.qCtx j : ℤ) : Rg (2 ^ K)) + e) := by
  unfold RlweGarner Cong
  rw [← BfvP.levelQ_eq hL]
  constructor
  · rintro ⟨g, hg, e, he, h⟩
    refine ⟨e, he, ?_⟩
    obtain ⟨w, hw⟩ := garner_unique hL hj hg
    obtain ⟨z, hz⟩ := h
    refine ⟨z + m * ((w : ℤ) : Rg (2 ^ K)), ?_⟩
    have hw' : (g : Rg (2 ^ K)) = ((Ksk.garnerAt L.qCtx j : ℤ) : Rg (2 ^ K)) + ((L.qCtx.Q : ℤ) : Rg (2 ^ K)) * (w : Rg (2 ^ K)) := by
      rw [show g = (Ksk.garnerAt L.qCtx j : ℤ) + (L.qCtx.Q : ℤ) * w by omega]; push_cast; ring
    rw [hw'] at hz
    linear_combination hz
  · rintro ⟨e, he, h⟩
    exact ⟨_, garner_isGarner hL hj, e, he, h⟩

theorem forall₂_getD {p : Rg (2 ^ K) → Poly → Prop} {n : Nat} (f : Nat → Rg (2 ^ K)) (c : RqContext)
    (h : ∀ x, p x (enc c .ntt x)) : List.Forall₂ p ((List.range n).map f) ((List.range n).map fun j => enc c .ntt (f j)) := by
  rw [List.forall₂_map_left_iff, List.forall₂_map_right_iff, List.forall₂_same]
  exact fun x _ => h _

theorem len_level (hL : P.At K ext i L) : L.qCtx.moduli64.length = (levelModuli P.ciphertextModuli i).length := by
  rw [hL.wf.mods]; rfl

theorem forall₂_polyAt (hL : P.At K ext i L) {fs : List (Rg (2 ^ K))} {ps : List Poly} (h : List.Forall₂ (PolyAt P i) fs ps) :
    ps = fs.map (enc L.qCtx .ntt) := by
  induction h with
  | nil => rfl
  | cons h1 _ ih => rw [List.map_cons, ← ih, (BfvP.polyAt_iff hL _ _).mp h1]

theorem isKsk_of_holds (hL : P.At K ext i L) {k : Ksk} {s src : Rg (2 ^ K)} {B : ℤ} {a b : Nat → Rg (2 ^ K)}
    (h : Ksk.Holds k L.qCtx s src B a b) : IsKsk P P.ciphertextModuli i s src B k := by
  have hl := len_level hL
  refine ⟨by rw [h.ctx]; exact hL.q, h.kctx.trans h.ctx.symm, (List.range L.qCtx.moduli64.length).map b,
    (List.range L.qCtx.moduli64.length).map a, ?_, ?_, by simp [hl], by simp [hl], ?_⟩
  · rw [h.c0]
    exact forall₂_getD _ _ fun x => (BfvP.polyAt_iff hL _ _).mpr rfl
  · rw [h.c1]
    exact forall₂_getD _ _ fun x => (BfvP.polyAt_iff hL _ _).mpr rfl
  · intro j hj
    rw [← hl] at hj
    rw [NttOperator.getD_map_of_lt _ _ _ 0 _ (by simpa using hj), NttOperator.getD_map_of_lt _ _ _ 0 _ (by simpa using hj)]
    rw [show (List.range L.qCtx.moduli64.length).getD j 0 = j by simp [hj]]
    exact (rlwe_iff hL hj).mpr (h.err j hj)

theorem holds_of_isKsk (hL : P.At K ext i L) {k : Ksk} {s src : Rg (2 ^ K)} {B : ℤ}
    (h : IsKsk P P.ciphertextModuli i s src B k) : ∃ a b, Ksk.Holds k L.qCtx s src B a b := by
  have hl := len_level hL
  obtain ⟨h1, h2, bs, as, h3, h4, h5, h6, h7⟩ := h
  have hctx : k.ctContext = L.qCtx := by rw [hL.q] at h1; exact (Option.some.inj h1).symm
  refine ⟨fun j => as.getD j 0, fun j => bs.getD j 0, hctx, h2.trans hctx, ?_, ?_, ?_⟩
  · rw [forall₂_polyAt hL h3]
    conv_lhs => rw [Ksk.list_eq_range bs 0]
    rw [h5, hl, List.map_map]; rfl
  · rw [forall₂_polyAt hL h4]
    conv_lhs => rw [Ksk.list_eq_range as 0]
    rw [h6, hl, List.map_map]; rfl
  · intro j hj
    exact (rlwe_iff hL hj).mp (h7 j (by omega))

theorem switchNoise_eq (hL : P.At K ext i L) : switchNoise (2 ^ K) P.ciphertextModuli i = 2 ^ K * (L.qCtx.moduli64.sum : ℤ) := by
  unfold switchNoise; rw [hL.wf.mods]; push_cast; rfl

theorem powerAt_iff (hL : P.At K ext i L) (f : Rg (2 ^ K)) (p : Poly) : PowerAt P i f p ↔ p = enc L.qCtx .powerBasis f := by
  unfold PowerAt
  rw [hL.q]
  constructor
  · rintro ⟨c, hc, hd⟩
    cases hc
    rw [RqP.denotes_iff hL.wf.ctx (by simp)] at hd
    rw [hd, ofCoeffs_cf']
  · rintro rfl
    refine ⟨_, rfl, ?_⟩
    exact RqP.denotes_enc hL.wf.ctx (by simp) _ fun j _ => rfl

end BfvP
end OnionPIR
