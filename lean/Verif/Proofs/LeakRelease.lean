import Mathlib.Data.List.Forall2
import Verif.Proofs.LeakSim
import Verif.Proofs.BfvParams
/-
The traces of the functions of Model/Leak in the release build.
-/
namespace OnionPIR
open Lk

/-- The same number of elements. -/
def SameLen {α β : Type} (a : List α) (b : List β) : Prop := a.length = b.length

theorem forall₂_eq {α : Type} (l : List α) : List.Forall₂ (fun a b => a = b) l l := List.forall₂_same.mpr fun _ _ => rfl

theorem forall₂_true {α β : Type} {a : List α} {b : List β} (h : SameLen a b) : List.Forall₂ (fun _ _ => True) a b := by
  induction a generalizing b with
  | nil => cases b <;> simp_all [SameLen]
  | cons x a ih =>
    cases b with
    | nil => simp [SameLen] at h
    | cons y b => exact .cons trivial (ih (by simpa [SameLen] using h))

namespace Lk
variable {α β γ δ : Type}

/-- Like `Sim`, with equal traces only for results that satisfy `C`. -/
def SimC (C : α → β → Prop) (x : Lk α) (y : Lk β) : Prop := ∀ a b, x.val = .ok a → y.val = .ok b → C a b → x.trace = y.trace

theorem SimC.bind {R : α → β → Prop} {C : γ → δ → Prop} {x : Lk α} {y : Lk β} {f : α → Lk γ} {g : β → Lk δ} (h : Sim R x y)
    (hf : ∀ a b, R a b → SimC C (f a) (g b)) : SimC C (x >>= f) (y >>= g) := by
  intro c d hc hd hC
  rw [bind_val] at hc hd
  cases hx : x.val with
  | error e => rw [hx] at hc; exact absurd hc (by simp)
  | ok a =>
    cases hy : y.val with
    | error e => rw [hy] at hd; exact absurd hd (by simp)
    | ok b =>
      rw [hx, res_ok_bind] at hc
      rw [hy, res_ok_bind] at hd
      obtain ⟨h1, h2⟩ := h a b hx hy
      rw [bind_trace_ok hx, bind_trace_ok hy, h1, hf a b h2 c d hc hd hC]

theorem SimC.toSim {C : α → β → Prop} {x : Lk α} {y : Lk β} (h : SimC C x y) (hC : ∀ a b, x.val = .ok a → y.val = .ok b → C a b) : Sim C x y :=
  fun a b ha hb => ⟨h a b ha hb (hC a b ha hb), hC a b ha hb⟩

theorem Sim.toSimC {R C : α → β → Prop} {x : Lk α} {y : Lk β} (h : Sim R x y) : SimC C x y := fun a b ha hb _ => (h a b ha hb).1

end Lk

theorem forall₂_idx {α β : Type} {R : α → β → Prop} {l : List α} {l' : List β} (h : List.Forall₂ R l l') {i : Nat} {a : α} {b : β} (ha : idx l i = .ok a)
    (hb : idx l' i = .ok b) : R a b := by
  unfold idx at ha hb
  induction h generalizing i with
  | nil => simp at ha
  | cons hab _ ih =>
    cases i with
    | zero => simp at ha hb; subst ha hb; exact hab
    | succ i => exact ih (by simpa using ha) (by simpa using hb)

/-- Closes goals on the trace of straight-line code. -/
macro "silent" : tactic => `(tactic| repeat' first | rfl | assumption | refine silent_bind ?_ (fun _ => ?_))

namespace Modulus
variable (m : Modulus)

theorem lazyReduceCtL_silent (a : Nat) : (m.lazyReduceCtL .release a).trace = [] := by unfold lazyReduceCtL; silent
theorem lazyReduceU128L_silent (a : Nat) : (m.lazyReduceU128L .release a).trace = [] := by unfold lazyReduceU128L; silent
theorem reduceCtL_silent (x p : Nat) : (reduceCtL .release x p).trace = [] :=
  silent_bind rfl fun _ => silent_bind rfl fun _ => silent_bind rfl fun _ => rfl
theorem reduceL_silent (a : Nat) : (m.reduceL .release a).trace = [] :=
  silent_bind (lazyReduceCtL_silent m a) fun _ => reduceCtL_silent _ _
theorem reduceU128L_silent (a : Nat) : (m.reduceU128L .release a).trace = [] :=
  silent_bind (lazyReduceU128L_silent m a) fun _ => reduceCtL_silent _ _
theorem reduceI64L_silent (a : Int) : (m.reduceI64L .release a).trace = [] := reduceU128L_silent m _
theorem mulL_silent (a b : Nat) : (m.mulL .release a b).trace = [] :=
  silent_bind rfl fun _ => silent_bind rfl fun _ => silent_bind rfl fun _ => reduceU128L_silent m _
theorem addL_silent (a b : Nat) : (m.addL .release a b).trace = [] :=
  silent_bind rfl fun _ => silent_bind rfl fun _ => silent_bind rfl fun _ => reduceCtL_silent _ _
theorem subL_silent (a b : Nat) : (m.subL .release a b).trace = [] :=
  silent_bind rfl fun _ => silent_bind rfl fun _ => silent_bind rfl fun _ => silent_bind rfl fun _ => reduceCtL_silent _ _
theorem negL_silent (a : Nat) : (m.negL .release a).trace = [] :=
  silent_bind rfl fun _ => silent_bind rfl fun _ => reduceCtL_silent _ _
theorem lazyMulShoupL_silent (a b bs : Nat) : (m.lazyMulShoupL .release a b bs).trace = [] := by
  unfold lazyMulShoupL
  refine silent_bind rfl fun _ => silent_bind rfl fun _ => ?_
  silent
theorem mulShoupL_silent (a b bs : Nat) : (m.mulShoupL .release a b bs).trace = [] :=
  silent_bind (lazyMulShoupL_silent m _ _ _) fun _ => reduceCtL_silent _ _

theorem powLoopL_sim (a a' r n v v' : Nat) : Sim (fun _ _ => True) (m.powLoopL .release a r n v) (m.powLoopL .release a' r n v') := by
  induction n generalizing v v' with
  | zero => exact (Sim.test false).bind fun _ _ _ => Sim.pure trivial
  | succ n ih =>
    refine (Sim.test true).bind fun _ _ _ => (Sim.silent (mulL_silent m _ _) (mulL_silent m _ _)).bind fun x y _ => ?_
    refine (Sim.test _).bind fun b b' hb => ?_
    obtain ⟨rfl, rfl⟩ := hb
    refine Sim.ite (fun _ => ?_) fun _ => ?_
    · exact (Sim.silent (mulL_silent m _ _) (mulL_silent m _ _)).bind fun _ _ _ => ih _ _
    · exact (Sim.pure (R := fun _ _ => True) trivial).bind fun _ _ _ => ih _ _

theorem powL_sim (a a' r : Nat) : Sim (fun _ _ => True) (m.powL .release a r) (m.powL .release a' r) := by
  refine (Sim.silent rfl rfl).bind fun _ _ _ => (Sim.test _).bind fun b b' hb => ?_
  obtain ⟨rfl, rfl⟩ := hb
  refine Sim.ite (fun _ => Sim.pure trivial) fun _ => (Sim.test _).bind fun b b' hb => ?_
  obtain ⟨rfl, rfl⟩ := hb
  refine Sim.ite (fun _ => Sim.pure trivial) fun _ => ?_
  refine Sim.bind (R := fun x y => x = y) ?_ fun x y hxy => ?_
  · exact fun x y hx hy => ⟨rfl, Except.ok.inj (hx.symm.trans hy)⟩
  · subst hxy; exact powLoopL_sim m _ _ _ _ _ _

theorem invL_sim (a a' : Nat) : Sim (fun _ _ => True) (m.invL .release a) (m.invL .release a') := by
  refine (Sim.silent rfl rfl).bind fun _ _ _ => Sim.bind (R := fun x y => x = y) ?_ fun x y hxy => ?_
  · exact fun x y hx hy => ⟨rfl, Except.ok.inj (hx.symm.trans hy)⟩
  · subst hxy; exact powL_sim m _ _ _

/-- Vector operations keep the length of the first vector. -/
theorem vec_sim {f : Nat → Nat → Lk Nat} (hf : ∀ a b, (f a b).trace = []) {a a' b b' : List Nat} (ha : SameLen a a') (hb : SameLen b b') :
    Sim SameLen (Lk.zipMut f a b) (Lk.zipMut f a' b') :=
  (Sim.zipMut (forall₂_true ha) (forall₂_true hb) fun _ _ _ _ _ _ => Sim.silent (hf _ _) (hf _ _)).mono fun _ _ h => h.length_eq

theorem map_sim {α : Type} {f : α → Lk Nat} (hf : ∀ a, (f a).trace = []) {a a' : List α} (ha : SameLen a a') :
    Sim SameLen (Lk.map f a) (Lk.map f a') :=
  (Sim.map (forall₂_true ha) fun _ _ _ => Sim.silent (hf _) (hf _)).mono fun _ _ h => h.length_eq

end Modulus

namespace NttOperator
open Modulus
variable (op : NttOperator)

theorem butterflyL_silent (x y w ws : Nat) : (op.butterflyL .release x y w ws).trace = [] := by
  unfold butterflyL
  refine silent_bind rfl fun _ => silent_bind rfl fun _ => silent_bind rfl fun _ => silent_bind rfl fun _ =>
    silent_bind (reduceCtL_silent _ _) fun _ => silent_bind (lazyMulShoupL_silent _ _ _ _) fun _ => ?_
  silent

theorem butterflyInvL_silent (x y w ws : Nat) : (op.butterflyInvL .release x y w ws).trace = [] := by
  unfold butterflyInvL
  refine silent_bind rfl fun _ => silent_bind rfl fun _ => silent_bind rfl fun _ => silent_bind rfl fun _ => silent_bind rfl fun _ =>
    silent_bind (reduceCtL_silent _ _) fun _ => silent_bind rfl fun _ => silent_bind rfl fun _ => silent_bind (lazyMulShoupL_silent _ _ _ _) fun _ => ?_
  silent

theorem reduce4pL_silent (a : Nat) (p : Modulus) : (reduce4pL .release a p).trace = [] :=
  silent_bind rfl fun _ => silent_bind rfl fun _ => silent_bind (reduceCtL_silent _ _) fun _ => reduceCtL_silent _ _

theorem updatePairL_sim {a a' : List Nat} (j l : Nat) {f : Nat → Nat → Lk (Nat × Nat)} (hf : ∀ x y, (f x y).trace = []) (h : SameLen a a') :
    Sim SameLen (updatePairL a j l f) (updatePairL a' j l f) :=
  (Sim.idx a a' j).bind fun _ _ _ => (Sim.idx a a' (j + l)).bind fun _ _ _ => (Sim.silent (hf _ _) (hf _ _)).bind fun _ _ _ =>
    Sim.pure (by simpa [SameLen] using h)

theorem forwardBlockL_sim (l i w ws : Nat) {a a' : List Nat} (h : SameLen a a') :
    Sim SameLen (op.forwardBlockL .release l i w ws a) (op.forwardBlockL .release l i w ws a') := by
  refine (Sim.test _).bind fun b b' hb => ?_
  obtain ⟨rfl, rfl⟩ := hb
  refine Sim.ite (fun _ => updatePairL_sim _ _ (fun x y => ?_) h) fun _ => ?_
  · exact silent_bind (butterflyL_silent op _ _ _ _) fun _ => silent_bind (reduce4pL_silent _ _) fun _ => silent_bind (reduce4pL_silent _ _) fun _ => rfl
  · refine Sim.fold (fun s t j _ hst => ?_) h
    exact updatePairL_sim _ _ (fun x y => butterflyL_silent op x y w ws) hst

theorem forwardLayerL_sim (l m k : Nat) {a a' : List Nat} (h : SameLen a a') :
    Sim (fun x y => SameLen x.1 y.1 ∧ x.2 = y.2) (op.forwardLayerL .release l m k a) (op.forwardLayerL .release l m k a') := by
  refine Sim.fold (R := fun (x y : List Nat × Nat) => SameLen x.1 y.1 ∧ x.2 = y.2) ?_ ⟨h, rfl⟩
  rintro ⟨s, k⟩ ⟨t, k'⟩ i - ⟨h1, h2⟩
  simp only at h1 h2
  subst h2
  refine (Sim.idx_same _ _).bind fun w w' hw => (Sim.idx_same _ _).bind fun v v' hv => ?_
  subst hw hv
  exact (forwardBlockL_sim op _ _ _ _ h1).bind fun x y hxy => Sim.pure ⟨hxy, rfl⟩

theorem forwardLoopL_sim (l m k : Nat) {a a' : List Nat} (h : SameLen a a') :
    Sim SameLen (op.forwardLoopL .release l m k a) (op.forwardLoopL .release l m k a') := by
  induction l using Nat.strong_induction_on generalizing m k a a' with
  | _ l ih =>
    rw [forwardLoopL, forwardLoopL]
    split
    · exact (Sim.test false).bind fun _ _ _ => Sim.pure h
    · rename_i hl
      refine (Sim.test true).bind fun _ _ _ => (forwardLayerL_sim op l m k h).bind fun x y hxy => ?_
      rw [← hxy.2]
      exact ih _ (by rw [Nat.shiftRight_eq_div_pow]; omega) _ _ hxy.1

theorem forwardL_sim {a a' : List Nat} (h : SameLen a a') : Sim SameLen (op.forwardL .release a) (op.forwardL .release a') :=
  (Sim.rassert (by rw [show a.length = a'.length from h])).bind fun _ _ _ => forwardLoopL_sim op _ _ _ h

theorem backwardLayerL_sim (l m k : Nat) {a a' : List Nat} (h : SameLen a a') :
    Sim (fun x y => SameLen x.1 y.1 ∧ x.2 = y.2) (op.backwardLayerL .release l m k a) (op.backwardLayerL .release l m k a') := by
  refine Sim.fold (R := fun (x y : List Nat × Nat) => SameLen x.1 y.1 ∧ x.2 = y.2) ?_ ⟨h, rfl⟩
  rintro ⟨s, k⟩ ⟨t, k'⟩ i - ⟨h1, h2⟩
  simp only at h1 h2
  subst h2
  refine (Sim.idx_same _ _).bind fun w w' hw => (Sim.idx_same _ _).bind fun v v' hv => ?_
  subst hw hv
  refine (Sim.fold (fun s t j _ hst => ?_) h1).bind fun x y hxy => Sim.pure ⟨hxy, rfl⟩
  exact updatePairL_sim _ _ (fun x y => butterflyInvL_silent op x y w v) hst

theorem backwardLoopL_sim (l m k : Nat) {a a' : List Nat} (h : SameLen a a') :
    Sim SameLen (op.backwardLoopL .release l m k a) (op.backwardLoopL .release l m k a') := by
  induction m using Nat.strong_induction_on generalizing l k a a' with
  | _ m ih =>
    rw [backwardLoopL, backwardLoopL]
    split
    · exact (Sim.test false).bind fun _ _ _ => Sim.pure h
    · rename_i hl
      refine (Sim.test true).bind fun _ _ _ => (backwardLayerL_sim op l m k h).bind fun x y hxy => ?_
      rw [← hxy.2]
      exact ih _ (by rw [Nat.shiftRight_eq_div_pow]; omega) _ _ hxy.1

theorem backwardL_sim {a a' : List Nat} (h : SameLen a a') : Sim SameLen (op.backwardL .release a) (op.backwardL .release a') :=
  (Sim.rassert (by rw [show a.length = a'.length from h])).bind fun _ _ _ => (backwardLoopL_sim op _ _ _ h).bind fun _ _ hxy =>
    map_sim (fun _ => mulShoupL_silent _ _ _ _) hxy

end NttOperator

theorem cbdStepL_sim (rng rng' : Nat → Nat) (v : Nat) {s s' : CbdState} (h : s.nbits = s'.nbits ∧ SameLen s.out s'.out) :
    Sim (fun x y => x.nbits = y.nbits ∧ SameLen x.out y.out) (cbdStepL .release rng v s) (cbdStepL .release rng' v s') := by
  obtain ⟨h1, h2⟩ := h
  unfold cbdStepL
  rw [h1]
  refine (Sim.test _).bind fun b b' hb => ?_
  obtain ⟨rfl, rfl⟩ := hb
  refine (Sim.silent rfl rfl).bind fun _ _ _ => Sim.bind (R := fun x y => x = y) ?_ fun x y hxy => ?_
  · intro x y hx hy
    refine ⟨rfl, ?_⟩
    rw [sub_val] at hx hy
    refine Except.ok.inj (hx.symm.trans (Eq.trans ?_ hy))
    split <;> simp only [h1]
  · subst hxy
    refine Sim.pure ⟨rfl, ?_⟩
    simp only [SameLen] at h2 ⊢
    split <;> simp only [List.length_append, List.length_singleton, List.length_cons, List.length_nil, h2]

theorem sampleVecCbdL_sim (rng rng' : Nat → Nat) (n v : Nat) : Sim SameLen (sampleVecCbdL .release rng n v) (sampleVecCbdL .release rng' n v) :=
  (Sim.rassert Iff.rfl).bind fun _ _ _ =>
    (Sim.fold (R := fun (x y : CbdState) => x.nbits = y.nbits ∧ SameLen x.out y.out) (fun _ _ _ _ h => cbdStepL_sim rng rng' v h) ⟨rfl, rfl⟩).bind
      fun _ _ h => Sim.pure h.2

namespace Poly
open Modulus NttOperator

/-- The same context, representation and shape; the coefficients may differ. -/
def Like (p q : Poly) : Prop := p.context = q.context ∧ p.representation = q.representation ∧ List.Forall₂ SameLen p.coefficients q.coefficients

theorem Like.refl (p : Poly) : Like p p := ⟨rfl, rfl, List.forall₂_same.mpr fun _ _ => rfl⟩

theorem changeRepresentationL_sim {p q : Poly} (h : Like p q) (tgt : Representation) :
    Sim Like (p.changeRepresentationL .release tgt) (q.changeRepresentationL .release tgt) := by
  obtain ⟨c, r, a⟩ := p
  obtain ⟨c', r', b⟩ := q
  obtain ⟨h1, h2, h3⟩ := h
  simp only at h1 h2 h3
  subst h1 h2
  have hf : Sim (List.Forall₂ SameLen) (Lk.zipMut (fun row (op : NttOperator) => op.forwardL .release row) a c.nttOps)
      (Lk.zipMut (fun row (op : NttOperator) => op.forwardL .release row) b c.nttOps) :=
    Sim.zipMut h3 (forall₂_eq _) fun _ _ _ _ hab hcd => by subst hcd; exact forwardL_sim _ hab
  have hb : Sim (List.Forall₂ SameLen) (Lk.zipMut (fun row (op : NttOperator) => op.backwardL .release row) a c.nttOps)
      (Lk.zipMut (fun row (op : NttOperator) => op.backwardL .release row) b c.nttOps) :=
    Sim.zipMut h3 (forall₂_eq _) fun _ _ _ _ hab hcd => by subst hcd; exact backwardL_sim _ hab
  cases r <;> cases tgt
  · exact Sim.pure ⟨rfl, rfl, h3⟩
  · exact hf.bind fun _ _ h => Sim.pure ⟨rfl, rfl, h⟩
  · exact Sim.lift (by simp)
  · exact hb.bind fun _ _ h => Sim.pure ⟨rfl, rfl, h⟩
  · exact Sim.pure ⟨rfl, rfl, h3⟩
  · exact Sim.lift (by simp)
  · exact Sim.lift (by simp)
  · exact Sim.lift (by simp)
  · exact Sim.lift (by simp)

theorem changeRepresentation_rep {pr : Profile} {p q : Poly} {tgt : Representation} (h : p.changeRepresentation pr tgt = .ok q) : q.representation = tgt := by
  obtain ⟨c, r, a⟩ := p
  cases r <;> cases tgt <;> simp only [changeRepresentation] at h <;>
    first
    | (cases h; done)
    | (cases h; rfl)
    | (obtain ⟨x, _, h⟩ := bind_eq_ok.mp h; cases h; rfl)

theorem copyPrefix_len {a b c : List Nat} (h : copyPrefix a b = .ok c) : c.length = a.length := by
  unfold copyPrefix at h
  split at h
  · cases h; rw [List.length_append, List.length_drop]; omega
  · simp at h

theorem tryFromVecI64L_sim (ctx : RqContext) {a b : List Int} (h : SameLen a b) :
    Sim Like (tryFromVecI64L .release ctx a) (tryFromVecI64L .release ctx b) := by
  refine (Sim.zipMut (R := SameLen) (P := fun x y => x = y) (List.forall₂_same.mpr fun _ _ => rfl) (forall₂_eq _) ?_).bind
    fun _ _ h => Sim.pure ⟨rfl, rfl, h⟩
  intro x y q q' hxy hq
  subst hq
  exact (map_sim (fun _ => reduceI64L_silent q _) h).bind fun v v' hv => Sim.lift fun s t hs ht => by
    rw [SameLen, copyPrefix_len hs, copyPrefix_len ht]; exact hxy

theorem randomSmallL_sim (ctx : RqContext) (rep : Representation) (v : Nat) (rng rng' : Nat → Nat) :
    Sim Like (randomSmallL .release ctx rep v rng) (randomSmallL .release ctx rep v rng') :=
  (sampleVecCbdL_sim _ _ _ _).bind fun _ _ h => (tryFromVecI64L_sim ctx h).bind fun _ _ h => changeRepresentationL_sim h rep

theorem bin_sim {f : Modulus → Nat → Nat → Lk Nat} (hf : ∀ m a b, (f m a b).trace = []) {p p' q q' : Poly} (h : Like p p') (h' : Like q q') :
    Sim Like
      (do Lk.rassert (p.representation = .ntt)
          Lk.rassert (q.representation = .ntt)
          let c ← Lk.zip3Mut (fun x y (m : Modulus) => Lk.zipMut (f m) x y) p.coefficients q.coefficients p.context.moduli
          pure { p with coefficients := c })
      (do Lk.rassert (p'.representation = .ntt)
          Lk.rassert (q'.representation = .ntt)
          let c ← Lk.zip3Mut (fun x y (m : Modulus) => Lk.zipMut (f m) x y) p'.coefficients q'.coefficients p'.context.moduli
          pure { p' with coefficients := c }) := by
  obtain ⟨h1, h2, h3⟩ := h
  obtain ⟨h4, h5, h6⟩ := h'
  refine (Sim.rassert (by rw [h2])).bind fun _ _ _ => (Sim.rassert (by rw [h5])).bind fun _ _ _ => ?_
  rw [h1]
  exact (Sim.zip3Mut h3 h6 fun _ _ _ _ m hx hy => vec_sim (hf m) hx hy).bind fun _ _ h => Sim.pure ⟨rfl, h2, h⟩

theorem addL_sim {p p' q q' : Poly} (h : Like p p') (h' : Like q q') : Sim Like (p.addL .release q) (p'.addL .release q') := bin_sim addL_silent h h'
theorem subL_sim {p p' q q' : Poly} (h : Like p p') (h' : Like q q') : Sim Like (p.subL .release q) (p'.subL .release q') := bin_sim subL_silent h h'
theorem mulL_sim {p p' q q' : Poly} (h : Like p p') (h' : Like q q') : Sim Like (p.mulL .release q) (p'.mulL .release q') := bin_sim mulL_silent h h'

end Poly

namespace RnsScaler
open Modulus

theorem mulWordsL_silent (r l h : Nat) : (mulWordsL .release r l h).trace = [] := by unfold mulWordsL; silent

theorem sumThetaGarnerL_sim (a b : List Nat) {c c' : List Nat} (h : SameLen c c') (acc acc' : Nat) :
    Sim (fun _ _ => True) (sumThetaGarnerL .release a b c acc) (sumThetaGarnerL .release a b c' acc') := by
  induction a generalizing b c c' acc acc' with
  | nil => exact (Sim.test false).bind fun _ _ _ => Sim.pure trivial
  | cons x a ih =>
    cases b with
    | nil => exact (Sim.test false).bind fun _ _ _ => Sim.pure trivial
    | cons y b =>
      cases c with
      | nil =>
        cases c' with
        | nil => exact (Sim.test false).bind fun _ _ _ => Sim.pure trivial
        | cons z c' => simp [SameLen] at h
      | cons z c =>
        cases c' with
        | nil => simp [SameLen] at h
        | cons z' c' =>
          exact (Sim.test true).bind fun _ _ _ => (Sim.silent (mulWordsL_silent _ _ _) (mulWordsL_silent _ _ _)).bind fun _ _ _ =>
            ih _ (by simpa [SameLen] using h) _ _

theorem divCeil2L_sim (w a a' : Nat) : Sim (fun _ _ => True) (divCeil2L w .release a) (divCeil2L w .release a') :=
  (Sim.rassert Iff.rfl).bind fun _ _ _ => (Sim.silent rfl rfl).bind fun _ _ _ => (Sim.silent rfl rfl).bind fun _ _ _ => Sim.silent rfl rfl

theorem scaleVL_sim (s : RnsScaler) {r r' : List Nat} (h : SameLen r r') : Sim (fun _ _ => True) (scaleVL .release s r) (scaleVL .release s r') :=
  (sumThetaGarnerL_sim _ _ h _ _).bind fun _ _ _ => (Sim.silent rfl rfl).bind fun _ _ _ => divCeil2L_sim _ _ _

theorem sumThetaOmegaL_sim (a b : List Nat) (sg : List Bool) {c c' : List Nat} (h : SameLen c c') (acc acc' : U256) :
    Sim (fun _ _ => True) (sumThetaOmegaL .release a b sg c acc) (sumThetaOmegaL .release a b sg c' acc') := by
  induction a generalizing b sg c c' acc acc' with
  | nil => exact (Sim.test false).bind fun _ _ _ => Sim.pure trivial
  | cons x a ih =>
    cases b with
    | nil => exact (Sim.test false).bind fun _ _ _ => Sim.pure trivial
    | cons y b =>
      cases sg with
      | nil => exact (Sim.test false).bind fun _ _ _ => Sim.pure trivial
      | cons g sg =>
        cases c with
        | nil =>
          cases c' with
          | nil => exact (Sim.test false).bind fun _ _ _ => Sim.pure trivial
          | cons z c' => simp [SameLen] at h
        | cons z c =>
          cases c' with
          | nil => simp [SameLen] at h
          | cons z' c' =>
            exact (Sim.test true).bind fun _ _ _ => (Sim.silent (mulWordsL_silent _ _ _) (mulWordsL_silent _ _ _)).bind fun _ _ _ =>
              (Sim.test _).bind fun _ _ _ => ih _ _ (by simpa [SameLen] using h) _ _

theorem vThetaGammaL_silent (v l h : Nat) : (vThetaGammaL .release v l h).trace = [] := by unfold vThetaGammaL; silent

theorem toU128L_silent (x : U256) : (toU128L .release x).trace = [] := silent_bind rfl fun _ => rfl

theorem roundW_sign {pr : Profile} {sum : U256} {a : Bool × Nat} (h : roundW pr sum = .ok a) : a.1 = decide (sum.msb > 0) := by
  unfold roundW at h
  split at h
  · rename_i hm
    simp only [gt_iff_lt] at hm
    cases h1 : (sum.not).shr pr 126 with
    | error e => rw [h1] at h; simp at h
    | ok x =>
      rw [h1, res_ok_bind] at h
      cases h2 : x.toU128 pr with
      | error e => rw [h2] at h; simp at h
      | ok w =>
        rw [h2, res_ok_bind] at h
        cases h3 : addW 128 pr w 1 with
        | error e => rw [h3] at h; simp at h
        | ok w' => rw [h3, res_ok_bind] at h; cases h; simp [hm]
  · rename_i hm
    simp only [gt_iff_lt] at hm
    cases h1 : sum.shr pr 126 with
    | error e => rw [h1] at h; simp at h
    | ok x =>
      rw [h1, res_ok_bind] at h
      cases h2 : x.toU128 pr with
      | error e => rw [h2] at h; simp at h
      | ok w =>
        rw [h2, res_ok_bind] at h
        cases h3 : divCeil 128 pr w 2 with
        | error e => rw [h3] at h; simp at h
        | ok w' => rw [h3, res_ok_bind] at h; cases h; simp [hm]

/-- The trace of the rounding is determined by the sign. -/
theorem roundWL_sim (s s' : U256) : SimC (fun a b => a.1 = b.1) (roundWL .release s) (roundWL .release s') := by
  intro a b ha hb hab
  have e : decide (s.msb > 0) = decide (s'.msb > 0) := by
    rw [roundWL_val] at ha hb
    rw [← roundW_sign ha, ← roundW_sign hb, hab]
  have key : Sim (fun _ _ => True) (roundWL .release s) (roundWL .release s') := by
    unfold roundWL
    rw [e]
    refine (Sim.test _).bind fun x x' hx => ?_
    obtain ⟨rfl, rfl⟩ := hx
    refine Sim.ite (fun _ => ?_) fun _ => ?_
    · refine Sim.bind (R := fun _ _ => True) (fun _ _ _ _ => ⟨rfl, trivial⟩) fun _ _ _ => ?_
      exact (Sim.silent (toU128L_silent _) (toU128L_silent _)).bind fun _ _ _ => (Sim.silent rfl rfl).bind fun _ _ _ => Sim.pure trivial
    · refine Sim.bind (R := fun _ _ => True) (fun _ _ _ _ => ⟨rfl, trivial⟩) fun _ _ _ => ?_
      exact (Sim.silent (toU128L_silent _) (toU128L_silent _)).bind fun _ _ _ => (divCeil2L_sim _ _ _).bind fun _ _ _ => Sim.pure trivial
  exact (key a b ha hb).1

theorem scaleWL_sim (s : RnsScaler) {r r' : List Nat} (h : SameLen r r') (v v' : Nat) :
    SimC (fun a b => a.1 = b.1) (scaleWL .release s r v) (scaleWL .release s r' v') := by
  refine SimC.bind (Sim.test _) fun b b' hb => ?_
  obtain ⟨rfl, rfl⟩ := hb
  cases hs : !s.scalingFactor.isOne
  · exact Sim.toSimC (R := fun _ _ => True) (Sim.pure trivial)
  · refine SimC.bind (sumThetaOmegaL_sim _ _ _ h _ _) fun _ _ _ => ?_
    refine SimC.bind (Sim.silent (vThetaGammaL_silent _ _ _) (vThetaGammaL_silent _ _ _)) fun _ _ _ => ?_
    exact SimC.bind (Sim.test _) fun _ _ _ => roundWL_sim _ _

theorem addOmegaL_sim (q : Modulus) {a a' : List Nat} (b c : List Nat) (j y y' : Nat) (h : SameLen a a') :
    Sim (fun _ _ => True) (addOmegaL .release q a b c j y) (addOmegaL .release q a' b c j y') := by
  induction a generalizing a' b c j y y' with
  | nil =>
    cases a' with
    | nil =>
      have : ∀ y, addOmegaL .release q [] b c j y = (do let _ ← Lk.test false; pure y) := fun y => by cases b <;> cases c <;> rfl
      rw [this, this]
      exact (Sim.test false).bind fun _ _ _ => Sim.pure trivial
    | cons z a' => simp [SameLen] at h
  | cons x a ih =>
    cases a' with
    | nil => simp [SameLen] at h
    | cons z a' =>
      cases b with
      | nil => exact Sim.lift (by simp)
      | cons u b =>
        cases c with
        | nil => exact Sim.lift (by simp)
        | cons w c =>
          refine (Sim.test true).bind fun _ _ _ => Sim.bind (R := fun _ _ => True) ?_ fun _ _ _ =>
            (Sim.silent rfl rfl).bind fun _ _ _ => ih _ _ _ _ _ (by simpa [SameLen] using h)
          refine Sim.bind (R := fun _ _ => True) (fun _ _ _ _ => ⟨rfl, trivial⟩) fun _ _ _ => ?_
          exact Sim.silent (lazyMulShoupL_silent _ _ _ _) (lazyMulShoupL_silent _ _ _ _)

theorem scaleOutL_sim (s : RnsScaler) {r r' : List Nat} (h : SameLen r r') (v v' : Nat) (g : Bool) (w w' j : Nat) :
    Sim (fun _ _ => True) (scaleOutL .release s r v g w j) (scaleOutL .release s r' v' g w' j) := by
  refine (Sim.idx_same _ _).bind fun q q' hq => (Sim.idx_same _ _).bind fun om om' ho => (Sim.idx_same _ _).bind fun os os' hos =>
    (Sim.idx_same _ _).bind fun ga ga' hg => (Sim.idx_same _ _).bind fun gs gs' hgs => ?_
  subst hq ho hos hg hgs
  refine (Sim.silent (reduceU128L_silent _ _) (reduceU128L_silent _ _)).bind fun _ _ _ =>
    (Sim.silent (lazyMulShoupL_silent _ _ _ _) (lazyMulShoupL_silent _ _ _ _)).bind fun _ _ _ => (Sim.silent rfl rfl).bind fun _ _ _ =>
    (Sim.silent rfl rfl).bind fun _ _ _ => Sim.bind (R := fun _ _ => True) ?_ fun _ _ _ =>
    (addOmegaL_sim _ _ _ _ _ _ h).bind fun _ _ _ => Sim.silent (reduceU128L_silent _ _) (reduceU128L_silent _ _)
  refine (Sim.test _).bind fun b b' hb => ?_
  obtain ⟨rfl, rfl⟩ := hb
  refine Sim.ite (fun _ => ?_) fun _ => Sim.pure trivial
  refine (Sim.silent (lazyReduceU128L_silent _ _) (lazyReduceU128L_silent _ _)).bind fun _ _ _ => Sim.bind (R := fun _ _ => True) ?_ fun _ _ _ =>
    Sim.silent rfl rfl
  refine (Sim.test _).bind fun b b' hb => ?_
  obtain ⟨rfl, rfl⟩ := hb
  exact Sim.ite (fun _ => (Sim.silent rfl rfl).bind fun _ _ _ => Sim.silent rfl rfl) fun _ => Sim.pure trivial

/-- The sign of `w`, the only secret that a branch of `scale` depends on. -/
def signOf (s : RnsScaler) (rests : List Nat) : Option Bool :=
  match scaleV .release s rests with
  | .ok v => match scaleW .release s rests v with
    | .ok w => some w.1
    | .error _ => none
  | .error _ => none

theorem scaleL_sim (s : RnsScaler) {r r' : List Nat} (h : SameLen r r') (hs : s.signOf r = s.signOf r') (n i : Nat) :
    Sim SameLen (s.scaleL .release r n i) (s.scaleL .release r' n i) := by
  refine (Sim.silent rfl rfl).bind fun _ _ _ => (Sim.silent rfl rfl).bind fun _ _ _ => (Sim.silent rfl rfl).bind fun _ _ _ => ?_
  refine ((scaleVL_sim s h).strengthen (S := fun v v' => scaleV .release s r = .ok v ∧ scaleV .release s r' = .ok v') ?_).bind fun v v' hv => ?_
  · intro a b ha hb _
    rw [scaleVL_val] at ha hb
    exact ⟨ha, hb⟩
  refine ((scaleWL_sim s h v v').toSim ?_).bind fun w w' hw => ?_
  · intro a b ha hb
    rw [scaleWL_val] at ha hb
    unfold signOf at hs
    rw [hv.1, hv.2] at hs
    simp only [ha, hb] at hs
    exact Option.some.inj hs
  · rw [← hw]
    refine (Sim.map (R := fun _ _ => True) (forall₂_eq _) fun a b hab => ?_).mono fun x y hxy => hxy.length_eq
    subst hab; exact scaleOutL_sim s h _ _ _ _ _ _

end RnsScaler

namespace RqScaler
open RnsScaler Poly

/-- The sign of `w` in every column. -/
def signs (s : RqScaler) (p : Poly) : List (Option Bool) :=
  (List.range s.src.degree).map fun j => match p.column j with
    | .ok col => s.rnsScaler.signOf col
    | .error _ => none

theorem column_len {p : Poly} {j : Nat} {c : List Nat} (h : p.column j = .ok c) : c.length = p.coefficients.length := (mapR_inv h).1

theorem scaleColumnsL_sim (s : RqScaler) {p q : Poly} (h : Like p q) (hs : s.signs p = s.signs q) :
    Sim (List.Forall₂ SameLen) (s.scaleColumnsL .release p) (s.scaleColumnsL .release q) := by
  refine (Sim.test _).bind fun b b' hb => ?_
  obtain ⟨rfl, rfl⟩ := hb
  refine Sim.ite (fun _ => ?_) fun _ => Sim.pure .nil
  refine Sim.map (P := fun i j => i = j ∧ i ∈ List.range s.src.degree) (List.forall₂_same.mpr fun _ hx => ⟨rfl, hx⟩) fun i j hij => ?_
  obtain ⟨rfl, hi⟩ := hij
  refine Sim.bind (R := fun a b => p.column i = .ok a ∧ q.column i = .ok b) (fun a b ha hb => ⟨rfl, ha, hb⟩) fun a b hab => ?_
  refine scaleL_sim _ ?_ ?_ _ _
  · rw [SameLen, column_len hab.1, column_len hab.2]; exact h.2.2.length_eq
  · have := List.map_inj_left.mp hs i hi
    simpa only [hab.1, hab.2] using this

theorem rowsL_sim (s : RqScaler) {p q : Poly} (h : Like p q) {c d : List (List Nat)} (hcd : List.Forall₂ SameLen c d) :
    Sim (List.Forall₂ SameLen)
      (Lk.lift (mapR (fun i => if i < s.numberCommonModuli then idx p.coefficients i else mapR (fun col => idx col (i - s.numberCommonModuli)) c)
        (List.range s.dst.moduli.length)))
      (Lk.lift (mapR (fun i => if i < s.numberCommonModuli then idx q.coefficients i else mapR (fun col => idx col (i - s.numberCommonModuli)) d)
        (List.range s.dst.moduli.length))) := by
  refine Sim.lift fun a b ha hb => ?_
  have h1 : ∀ {p : Poly} {c : List (List Nat)} {l : List Nat} {a : List (List Nat)}, mapR (fun i =>
    if i < s.numberCommonModuli then idx p.coefficients i
    else mapR (fun col => idx col (i - s.numberCommonModuli)) c) l = .ok a →
      List.Forall₂ (fun i r => if i < s.numberCommonModuli then idx p.coefficients i = .ok r else r.length = c.length) l a := by
    intro p c l
    induction l with
    | nil => intro a ha; cases ha; exact .nil
    | cons x l ih =>
      intro a ha
      obtain ⟨r, hr, ha⟩ := bind_eq_ok.mp ha
      obtain ⟨rs, hrs, ha⟩ := bind_eq_ok.mp ha
      cases ha
      refine .cons ?_ (ih hrs)
      simp only at hr
      split
      · rename_i hx; rwa [if_pos hx] at hr
      · rename_i hx; rw [if_neg hx] at hr; exact (mapR_inv hr).1
  replace ha := h1 ha
  replace hb := h1 hb
  clear h1
  generalize List.range s.dst.moduli.length = l at ha hb
  induction ha generalizing b with
  | nil => cases hb; exact .nil
  | cons hx _ ih =>
    cases hb with
    | cons hy hb =>
      refine .cons ?_ (ih _ hb)
      split at hx
      · rename_i hi
        rw [if_pos hi] at hy
        exact forall₂_idx h.2.2 hx hy
      · rename_i hi
        rw [if_neg hi] at hy
        rw [SameLen, hx, hy]; exact hcd.length_eq

theorem scalePowerL_sim (s : RqScaler) {p q : Poly} (h : Like p q) (hs : s.signs p = s.signs q) :
    Sim Like (s.scalePowerL .release p) (s.scalePowerL .release q) :=
  (scaleColumnsL_sim s h hs).bind fun _ _ hcd => (rowsL_sim s h hcd).bind fun _ _ h => Sim.pure ⟨rfl, rfl, h⟩

theorem scaleL_sim (s : RqScaler) {p q : Poly} (h : Like p q) (hp : p.representation = .powerBasis) (hs : s.signs p = s.signs q) :
    Sim Like (s.scaleL .release p) (s.scaleL .release q) := by
  have hq : q.representation = .powerBasis := h.2.1 ▸ hp
  unfold RqScaler.scaleL
  refine (Sim.rassert (by rw [h.1])).bind fun _ _ _ => ?_
  rw [hp, hq]
  refine (Sim.test _).bind fun b b' hb => ?_
  obtain ⟨rfl, rfl⟩ := hb
  exact Sim.ite (fun h => absurd h (by simp)) fun _ => scalePowerL_sim s h hs

end RqScaler

namespace SecretKey
open Poly Modulus

theorem generateL_sim (P : BfvParameters) (rng rng' : Nat → Nat) :
    Sim (fun a b => a.params = b.params ∧ SameLen a.coeffs b.coeffs) (generateL .release P rng) (generateL .release P rng') :=
  (sampleVecCbdL_sim _ _ _ _).bind fun _ _ h => Sim.pure ⟨rfl, h⟩

theorem polyNttL_sim {sk sk' : SecretKey} (h : SameLen sk.coeffs sk'.coeffs) (ctx : RqContext) :
    Sim Like (sk.polyNttL .release ctx) (sk'.polyNttL .release ctx) :=
  (tryFromVecI64L_sim ctx h).bind fun _ _ h => changeRepresentationL_sim h _

theorem random_like (ctx : RqContext) (t t' : Nat → Nat → Nat) (rep : Representation) : Like (Poly.random ctx t rep) (Poly.random ctx t' rep) := by
  refine ⟨rfl, rfl, ?_⟩
  simp only [Poly.random]
  rw [List.forall₂_map_left_iff, List.forall₂_map_right_iff]
  exact List.forall₂_same.mpr fun _ _ => by simp [SameLen]

theorem encryptPolyL_sim {sk sk' : SecretKey} (hP : sk.params = sk'.params) (h : SameLen sk.coeffs sk'.coeffs) {pt pt' : Poly} (hpt : Like pt pt')
    (aTape aTape' : Nat → Nat → Nat) (rng rng' : Nat → Nat) :
    Sim (fun a b => List.Forall₂ Like a.cts b.cts) (sk.encryptPolyL .release pt aTape rng) (sk'.encryptPolyL .release pt' aTape' rng') := by
  unfold encryptPolyL
  rw [hpt.1, hP]
  refine (polyNttL_sim h _).bind fun s s' hs => (mulL_sim (random_like _ _ _ _) hs).bind fun x x' hx =>
    (randomSmallL_sim _ _ _ _ _).bind fun b b' hb => (subL_sim hb hx).bind fun b b' hb => (addL_sim hb hpt).bind fun b b' hb => Sim.pure ?_
  exact .cons hb (.cons (random_like _ _ _ _) .nil)

theorem decryptTrialL_sim {sk sk' : SecretKey} (h : SameLen sk.coeffs sk'.coeffs) {c c' d d' : Poly} (hc : Like c c') (hd : Like d d') :
    Sim Like (sk.decryptTrialL .release c d) (sk'.decryptTrialL .release c' d') := by
  unfold decryptTrialL
  rw [hc.1, hd.1]
  exact (Sim.rassert Iff.rfl).bind fun _ _ _ => (polyNttL_sim h _).bind fun s s' hs => (mulL_sim hs hd).bind fun _ _ hv => addL_sim hv hc

theorem phaseL_sim {sk sk' : SecretKey} (h : SameLen sk.coeffs sk'.coeffs) {c c' : List Poly} (hc : List.Forall₂ Like c c') :
    Sim Like (sk.phaseL .release c) (sk'.phaseL .release c') := by
  unfold phaseL
  cases hc with
  | nil => exact Sim.bind (Sim.idx [] [] 0) fun a b hab => absurd hab.1 (by simp)
  | @cons x y c c' hxy hc =>
    refine (Sim.idx _ _ 0).bind fun a b hab => ?_
    obtain ⟨h1, h2⟩ := hab
    cases h1; cases h2
    rw [hxy.1]
    refine (polyNttL_sim h _).bind fun s s' hs => ?_
    refine Sim.bind (R := fun (a b : Poly × Poly) => Like a.1 b.1 ∧ Like a.2 b.2) ?_ fun _ _ h => Sim.pure h.1
    refine Sim.fold₂ (P := Like) hc (fun st st' a b hab hst => ?_) ⟨hxy, hs⟩
    exact (mulL_sim hst.2 hab).bind fun _ _ hx => (addL_sim hst.1 hx).bind fun _ _ hm => (mulL_sim hst.2 hs).bind fun _ _ hsi => Sim.pure ⟨hm, hsi⟩

/-- The signs met by `decrypt`, one for each coefficient. -/
def signs (sk : SecretKey) (ct : BfvCipherText) : Res (List (Option Bool)) := do
  let m ← sk.phase .release ct.cts
  let m ← m.changeRepresentation .release .powerBasis
  let scaler ← idx sk.params.scalars ct.level
  pure (scaler.signs m)

theorem decryptL_sim {sk sk' : SecretKey} (hP : sk.params = sk'.params) (h : SameLen sk.coeffs sk'.coeffs) {ct ct' : BfvCipherText}
    (hl : ct.level = ct'.level) (hc : List.Forall₂ Like ct.cts ct'.cts) (hs : sk.signs ct = sk'.signs ct') :
    Sim (fun a b => SameLen a.values b.values) (sk.decryptL .release ct) (sk'.decryptL .release ct') := by
  unfold decryptL
  unfold signs at hs
  rw [hP, hl] at hs
  rw [hP, hl]
  refine ((phaseL_sim h hc).strengthen (S := fun m m' => Like m m' ∧ sk.phase .release ct.cts = .ok m ∧ sk'.phase .release ct'.cts = .ok m') ?_).bind
    fun m m' hm => ?_
  · intro a b ha hb hab
    rw [phaseL_val] at ha hb
    exact ⟨hab, ha, hb⟩
  obtain ⟨hm, e1, e2⟩ := hm
  refine ((changeRepresentationL_sim hm .powerBasis).strengthen (S := fun n n' => Like n n' ∧ m.changeRepresentation .release .powerBasis = .ok n ∧
    m'.changeRepresentation .release .powerBasis = .ok n') ?_).bind fun n n' hn => ?_
  · intro a b ha hb hab
    rw [changeRepresentationL_val] at ha hb
    exact ⟨hab, ha, hb⟩
  obtain ⟨hn, e3, e4⟩ := hn
  refine (Sim.idx _ _ _).bind fun sc sc' hsc => ?_
  obtain ⟨h1, h2⟩ := hsc
  rw [h1] at h2
  cases h2
  have e5 : idx sk'.params.scalars ct'.level = .ok sc := by unfold idx; rw [h1]
  rw [e1, e2, res_ok_bind, res_ok_bind, e3, e4, res_ok_bind, res_ok_bind, e5, res_ok_bind, res_ok_bind] at hs
  refine (RqScaler.scaleL_sim sc hn (changeRepresentation_rep e3) (Except.ok.inj hs)).bind fun x y hxy => ?_
  refine (Sim.lift (R := SameLen) fun a b ha hb => forall₂_idx hxy.2.2 ha hb).bind fun r r' hr => ?_
  refine (map_sim (fun _ => rfl) hr).bind fun r r' hr => ?_
  refine (Sim.lift (R := SameLen) fun a b ha hb => ?_).bind fun r r' hr => (Sim.idx_same _ _).bind fun ctx ctx' hctx => ?_
  · unfold takeR at ha hb
    split at ha
    · split at hb
      · cases ha; cases hb
        simp only [SameLen, List.length_take] at hr ⊢
        rw [hr]
      · simp at hb
    · simp at ha
  subst hctx
  refine (Sim.lift (R := fun a b => a = b) fun a b ha hb => Except.ok.inj (ha.symm.trans hb)).bind fun q q' hq => ?_
  subst hq
  refine (map_sim (reduceL_silent _) hr).bind fun r r' hr => ?_
  refine (Sim.lift (R := fun a b => a = b) fun a b ha hb => Except.ok.inj (ha.symm.trans hb)).bind fun q q' hq => ?_
  subst hq
  exact (map_sim (reduceL_silent _) hr).bind fun r r' hr => Sim.pure hr

end SecretKey
end OnionPIR
