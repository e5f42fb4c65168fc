import Verif.Model.Cost
import Verif.Proofs.Machine
import Mathlib.Tactic.Ring
/-
The functions of Model/Cost compute the values of the first model, and rules for their work.
-/
namespace OnionPIR

namespace Work

theorem ext' {a b : Work} (h1 : a.butterflies = b.butterflies) (h2 : a.products = b.products) : a = b := by
  cases a; cases b; cases h1; cases h2; rfl
theorem add_butterflies (a b : Work) : (a + b).butterflies = a.butterflies + b.butterflies := rfl
theorem add_products (a b : Work) : (a + b).products = a.products + b.products := rfl
theorem zero_butterflies : (0 : Work).butterflies = 0 := rfl
theorem zero_products : (0 : Work).products = 0 := rfl
theorem times_butterflies (k : Nat) (w : Work) : (times k w).butterflies = k * w.butterflies := rfl
theorem times_products (k : Nat) (w : Work) : (times k w).products = k * w.products := rfl

/-- Equality of two expressions of work, counter by counter. -/
macro "work" : tactic => `(tactic| (refine Work.ext' ?_ ?_ <;>
  simp only [Work.add_butterflies, Work.add_products, Work.zero_butterflies, Work.zero_products, Work.times_butterflies, Work.times_products] <;> ring))

theorem zero_add (w : Work) : 0 + w = w := by work
theorem add_zero (w : Work) : w + 0 = w := by work
theorem times_succ (k : Nat) (w : Work) : times (k + 1) w = w + times k w := by work
theorem times_add (j k : Nat) (w : Work) : times (j + k) w = times j w + times k w := by work
theorem times_times (j k : Nat) (w : Work) : times j (times k w) = times (j * k) w := by work
theorem times_zero (w : Work) : times 0 w = 0 := by work
theorem times_one (w : Work) : times 1 w = w := by work

theorem sum_const {α : Type} (l : List α) (w : Work) : (l.map fun _ => w).sum = times l.length w := by
  induction l with
  | nil => exact (times_zero w).symm
  | cons a l ih => rw [List.map_cons, List.sum_cons, ih, List.length_cons, times_succ]

theorem sum_times {α : Type} (l : List α) (f : α → Nat) (w : Work) : (l.map fun a => times (f a) w).sum = times (l.map f).sum w := by
  induction l with
  | nil => exact (times_zero w).symm
  | cons a l ih => rw [List.map_cons, List.sum_cons, ih, List.map_cons, List.sum_cons, times_add]

theorem sum_congr {α : Type} {l : List α} {f g : α → Work} (h : ∀ a ∈ l, f a = g a) : (l.map f).sum = (l.map g).sum := by
  rw [List.map_congr_left h]

end Work

namespace Cw

theorem bind_val {α β : Type} (x : Cw α) (f : α → Cw β) : (x >>= f).val = x.val >>= fun a => (f a).val := by
  show (match x.val with
    | .ok a => (⟨(f a).val, x.work + (f a).work⟩ : Cw β)
    | .error e => ⟨.error e, x.work⟩).val = _
  cases x.val <;> rfl

theorem bind_work {α β : Type} {x : Cw α} {a : α} (h : x.val = .ok a) (f : α → Cw β) : (x >>= f).work = x.work + (f a).work := by
  show (match x.val with
    | .ok a => (⟨(f a).val, x.work + (f a).work⟩ : Cw β)
    | .error e => ⟨.error e, x.work⟩).work = _
  rw [h]

theorem pure_val {α : Type} (a : α) : (pure a : Cw α).val = .ok a := rfl
theorem lift_val {α : Type} (x : Res α) : (lift x).val = x := rfl
theorem butterfly_val {α : Type} (x : Res α) : (butterfly x).val = x := rfl
theorem product_val {α : Type} (x : Res α) : (product x).val = x := rfl

theorem map_val {α β : Type} (f : α → Cw β) (l : List α) : (map f l).val = mapR (fun a => (f a).val) l := by
  induction l with
  | nil => rfl
  | cons a as ih => simp only [map, mapR, bind_val, ih, pure_val]

theorem fold_val {α σ : Type} (f : σ → α → Cw σ) (s : σ) (l : List α) : (fold f s l).val = foldR (fun s a => (f s a).val) s l := by
  induction l generalizing s with
  | nil => rfl
  | cons a as ih => simp only [fold, foldR, bind_val, ih]

theorem zipMut_val {α β : Type} (f : α → β → Cw α) (l : List α) (l' : List β) : (zipMut f l l').val = zipMutM (fun a b => (f a b).val) l l' := by
  induction l generalizing l' with
  | nil => rfl
  | cons a as ih =>
    cases l' with
    | nil => rfl
    | cons b bs => simp only [zipMut, zipMutM, bind_val, ih, pure_val]

theorem zip3Mut_val {α β γ : Type} (f : α → β → γ → Cw α) (l : List α) (l' : List β) (l'' : List γ) :
    (zip3Mut f l l' l'').val = zip3MutM (fun a b c => (f a b c).val) l l' l'' := by
  induction l generalizing l' l'' with
  | nil => rfl
  | cons a as ih =>
    cases l' with
    | nil => rfl
    | cons b bs =>
      cases l'' with
      | nil => rfl
      | cons c cs => simp only [zip3Mut, zip3MutM, bind_val, ih, pure_val]

/-- If it returns, then after the work `w` and with a result that satisfies `Q`. -/
def Costs {α : Type} (x : Cw α) (w : Work) (Q : α → Prop) : Prop := ∀ v, x.val = .ok v → x.work = w ∧ Q v

namespace Costs

theorem bind {α β : Type} {x : Cw α} {f : α → Cw β} {w w' : Work} {Q : α → Prop} {R : β → Prop} (hx : Costs x w Q)
    (hf : ∀ a, Q a → Costs (f a) w' R) : Costs (x >>= f) (w + w') R := by
  intro v hv
  rw [bind_val] at hv
  obtain ⟨a, h1, h2⟩ := bind_eq_ok.mp hv
  obtain ⟨e1, q⟩ := hx a h1
  obtain ⟨e2, r⟩ := hf a q v h2
  exact ⟨by rw [bind_work h1, e1, e2], r⟩

theorem pure {α : Type} {a : α} {Q : α → Prop} (h : Q a) : Costs (Pure.pure a : Cw α) 0 Q := by
  intro v hv
  obtain rfl := Except.ok.inj hv
  exact ⟨rfl, h⟩

theorem bindPure {α β : Type} {x : Cw α} {g : α → β} {w : Work} {Q : α → Prop} {R : β → Prop} (hx : Costs x w Q) (h : ∀ a, Q a → R (g a)) :
    Costs (x >>= fun a => Pure.pure (g a)) w R := by
  rw [← Work.add_zero w]
  exact hx.bind fun a ha => pure (h a ha)

theorem lift {α : Type} {x : Res α} {Q : α → Prop} (h : ∀ v, x = .ok v → Q v) : Costs (Cw.lift x) 0 Q := fun v hv => ⟨rfl, h v hv⟩

theorem liftBind {α β : Type} {x : Res α} {f : α → Cw β} {w : Work} {R : β → Prop} (h : ∀ v, x = .ok v → Costs (f v) w R) :
    Costs (Cw.lift x >>= f) w R := by
  rw [← Work.zero_add w]
  exact (lift (Q := fun v => x = .ok v) fun _ hv => hv).bind h

theorem mono {α : Type} {x : Cw α} {w : Work} {Q R : α → Prop} (h : Costs x w Q) (hq : ∀ a, Q a → R a) : Costs x w R :=
  fun v hv => ⟨(h v hv).1, hq v (h v hv).2⟩

theorem cast {α : Type} {x : Cw α} {w w' : Work} {Q : α → Prop} (h : Costs x w Q) (e : w = w') : Costs x w' Q := e ▸ h

theorem fold {α σ : Type} {f : σ → α → Cw σ} {w : α → Work} {I : σ → Prop} : ∀ {l : List α} {s : σ}, (∀ s, ∀ a ∈ l, I s → Costs (f s a) (w a) I) → I s →
    Costs (Cw.fold f s l) (l.map w).sum I
  | [], _, _, hs => pure hs
  | a :: l, s, hf, hs => by
    rw [List.map_cons, List.sum_cons]
    exact (hf s a (by simp) hs).bind fun s' hs' => fold (fun s b hb => hf s b (by simp [hb])) hs'

theorem foldConst {α σ : Type} {f : σ → α → Cw σ} {w : Work} {I : σ → Prop} {l : List α} {s : σ} (hf : ∀ s, ∀ a ∈ l, I s → Costs (f s a) w I) (hs : I s) :
    Costs (Cw.fold f s l) (Work.times l.length w) I := by
  rw [← Work.sum_const]
  exact fold hf hs

theorem map {α β : Type} {f : α → Cw β} {w : α → Work} {Q : α → β → Prop} : ∀ {l : List α}, (∀ a ∈ l, Costs (f a) (w a) (Q a)) →
    Costs (Cw.map f l) (l.map w).sum (List.Forall₂ Q l)
  | [], _ => pure .nil
  | a :: l, hf => by
    rw [List.map_cons, List.sum_cons]
    exact (hf a (by simp)).bind fun x hx => (map fun b hb => hf b (by simp [hb])).bindPure fun r hr => .cons hx hr

theorem mapConst {α β : Type} {f : α → Cw β} {w : Work} {Q : α → β → Prop} {l : List α} (hf : ∀ a ∈ l, Costs (f a) w (Q a)) :
    Costs (Cw.map f l) (Work.times l.length w) (List.Forall₂ Q l) := by
  rw [← Work.sum_const]
  exact map hf

theorem pureTimes {α : Type} {a : α} {Q : α → Prop} {k : Nat} {w : Work} (hk : k = 0) (h : Q a) : Costs (Pure.pure a : Cw α) (Work.times k w) Q := by
  rw [hk, Work.times_zero]
  exact pure h

theorem zipMut {α β γ : Type} {f : α → β → Cw α} {w : Work} (g : α → γ) : ∀ {as : List α} {bs : List β},
    (∀ a ∈ as, ∀ b ∈ bs, Costs (f a b) w fun x => g x = g a) →
    Costs (Cw.zipMut f as bs) (Work.times (min as.length bs.length) w) fun r => r.map g = as.map g
  | [], bs, _ => pureTimes (by simp) rfl
  | a :: as, [], _ => pureTimes (by simp) rfl
  | a :: as, b :: bs, hf => by
    refine Costs.cast ((hf a (by simp) b (by simp)).bind fun x hx =>
      (zipMut g (as := as) (bs := bs) fun a' ha b' hb => hf a' (by simp [ha]) b' (by simp [hb])).bindPure (R := fun r : List α => r.map g = (a :: as).map g)
        fun r hr => by rw [List.map_cons, List.map_cons, hx, hr]) ?_
    rw [← Work.times_succ]
    congr 1
    simp

theorem zip3Mut {α β γ δ : Type} {f : α → β → γ → Cw α} {w : Work} (g : α → δ) : ∀ {as : List α} {bs : List β} {cs : List γ},
    (∀ a ∈ as, ∀ b ∈ bs, ∀ c ∈ cs, Costs (f a b c) w fun x => g x = g a) →
    Costs (Cw.zip3Mut f as bs cs) (Work.times (min as.length (min bs.length cs.length)) w) fun r => r.map g = as.map g
  | [], bs, cs, _ => by
    unfold Cw.zip3Mut
    exact pureTimes (by simp) rfl
  | a :: as, [], cs, _ => by
    unfold Cw.zip3Mut
    exact pureTimes (by simp) rfl
  | a :: as, b :: bs, [], _ => by
    unfold Cw.zip3Mut
    exact pureTimes (by simp) rfl
  | a :: as, b :: bs, c :: cs, hf => by
    refine Costs.cast ((hf a (by simp) b (by simp) c (by simp)).bind fun x hx =>
      (zip3Mut g (as := as) (bs := bs) (cs := cs) fun a' ha b' hb c' hc => hf a' (by simp [ha]) b' (by simp [hb]) c' (by simp [hc])).bindPure
        (R := fun r : List α => r.map g = (a :: as).map g) fun r hr => by rw [List.map_cons, List.map_cons, hx, hr]) ?_
    rw [← Work.times_succ]
    congr 1
    simp

end Costs
end Cw

open Cw

section Values
variable (pr : Profile)

namespace NttOperator

theorem updatePairC_val (a : List Nat) (j l : Nat) (f : Nat → Nat → Res (Nat × Nat)) : (updatePairC a j l f).val = updatePair a j l f := by
  simp only [updatePairC, updatePair, bind_val, lift_val, butterfly_val, pure_val]

theorem forwardBlockC_val (op : NttOperator) (l i w ws : Nat) (a : List Nat) : (op.forwardBlockC pr l i w ws a).val = op.forwardBlock pr l i w ws a := by
  unfold forwardBlockC forwardBlock
  by_cases h : l = 1
  · simp only [h, if_true, updatePairC_val]
  · simp only [h, if_false, fold_val, updatePairC_val]

theorem forwardLayerC_val (op : NttOperator) (l m k : Nat) (a : List Nat) : (op.forwardLayerC pr l m k a).val = op.forwardLayer pr l m k a := by
  simp only [forwardLayerC, forwardLayer, fold_val, bind_val, lift_val, forwardBlockC_val, pure_val]

theorem forwardLoopC_val (op : NttOperator) (l m k : Nat) (a : List Nat) : (op.forwardLoopC pr l m k a).val = op.forwardLoop pr l m k a := by
  induction l using Nat.strong_induction_on generalizing m k a with
  | _ l ih =>
    rw [forwardLoopC, forwardLoop]
    by_cases h : l = 0
    · rw [dif_pos h, dif_pos h, pure_val]
    · rw [dif_neg h, dif_neg h, bind_val, forwardLayerC_val]
      congr 1
      funext st
      exact ih (l >>> 1) (by rw [Nat.shiftRight_eq_div_pow]; omega) _ _ _

theorem forwardC_val (op : NttOperator) (a : List Nat) : (op.forwardC pr a).val = op.forward pr a := by
  simp only [forwardC, forward, bind_val, lift_val, forwardLoopC_val]

theorem backwardLayerC_val (op : NttOperator) (l m k : Nat) (a : List Nat) : (op.backwardLayerC pr l m k a).val = op.backwardLayer pr l m k a := by
  simp only [backwardLayerC, backwardLayer, fold_val, bind_val, lift_val, updatePairC_val, pure_val]

theorem backwardLoopC_val (op : NttOperator) (l m k : Nat) (a : List Nat) : (op.backwardLoopC pr l m k a).val = op.backwardLoop pr l m k a := by
  induction m using Nat.strong_induction_on generalizing l k a with
  | _ m ih =>
    rw [backwardLoopC, backwardLoop]
    by_cases h : m = 0
    · rw [dif_pos h, dif_pos h, pure_val]
    · rw [dif_neg h, dif_neg h, bind_val, backwardLayerC_val]
      congr 1
      funext st
      exact ih (m >>> 1) (by rw [Nat.shiftRight_eq_div_pow]; omega) _ _ _

theorem backwardC_val (op : NttOperator) (a : List Nat) : (op.backwardC pr a).val = op.backward pr a := by
  simp only [backwardC, backward, bind_val, lift_val, backwardLoopC_val, map_val, product_val]

end NttOperator

theorem Modulus.mulVecC_val (m : Modulus) (a b : List Nat) : (m.mulVecC pr a b).val = m.mulVec pr a b := by
  simp only [mulVecC, mulVec, zipMut_val, product_val]

namespace Poly

theorem changeRepresentationC_val (p : Poly) (r : Representation) : (p.changeRepresentationC pr r).val = p.changeRepresentation pr r := by
  unfold changeRepresentationC changeRepresentation
  cases p.representation <;> cases r <;>
    simp only [bind_val, zipMut_val, NttOperator.forwardC_val, NttOperator.backwardC_val, pure_val, lift_val]

theorem mulC_val (a b : Poly) : (a.mulC pr b).val = a.mul pr b := by
  simp only [mulC, mul, bind_val, lift_val, zip3Mut_val, Modulus.mulVecC_val, pure_val]

theorem mulBigC_val (a : Poly) (b : Nat) : (a.mulBigC pr b).val = a.mulBig pr b := by
  simp only [mulBigC, mulBig, bind_val, lift_val, changeRepresentationC_val, mulC_val]

end Poly

theorem Ksk.keySwitchC_val (k : Ksk) (p : Poly) : (k.keySwitchC pr p).val = k.keySwitch pr p := by
  simp only [keySwitchC, keySwitch, switchStepC, bind_val, lift_val, fold_val, Poly.changeRepresentationC_val, Poly.mulC_val, pure_val]
  rfl

theorem GaliosKey.relinearizeC_val (g : GaliosKey) (ct : BfvCipherText) : (g.relinearizeC pr ct).val = g.relinearize pr ct := by
  simp only [relinearizeC, relinearize, bind_val, lift_val, Poly.changeRepresentationC_val, Ksk.keySwitchC_val, pure_val]

theorem RgswCt.externalProductC_val (g : RgswCt) (ct : BfvCipherText) : (g.externalProductC pr ct).val = g.externalProduct pr ct := by
  simp only [externalProductC, externalProduct, bind_val, lift_val, Poly.changeRepresentationC_val, Ksk.keySwitchC_val, pure_val]

theorem BfvCipherText.mulPolyC_val (a : BfvCipherText) (p : Poly) : (a.mulPolyC pr p).val = a.mulPoly pr p := by
  simp only [mulPolyC, mulPoly, bind_val, lift_val, Poly.mulC_val, pure_val]

namespace Evaluation

theorem unpackStepC_val (ev : Evaluation) (x : List Poly) (e i : Nat) (bits : List BfvCipherText) (j : Nat) :
    (unpackStepC pr ev x e i bits j).val = unpackStep pr ev x e i bits j := by
  simp only [unpackStepC, unpackStep, bind_val, lift_val, GaliosKey.relinearizeC_val, Poly.changeRepresentationC_val, Poly.mulC_val]

theorem unpackWithC_val (ev : Evaluation) (x : List Poly) (ct : BfvCipherText) : (unpackWithC pr ev x ct).val = unpackWith pr ev x ct := by
  simp only [unpackWithC, unpackWith, unpackStageC, bind_val, lift_val, map_val, Poly.mulBigC_val, fold_val, unpackStepC_val, pure_val]
  rfl

end Evaluation

theorem Repair.unpackC_val (ev : Evaluation) (ct : BfvCipherText) : (Repair.unpackC pr ev ct).val = Repair.unpack pr ev ct := by
  simp only [Repair.unpackC, Repair.unpack, bind_val, lift_val, Evaluation.unpackWithC_val]

/-- Transforming the monomials first changes nothing, if it succeeds. -/
theorem Evaluation.unpackWith_once (ev : Evaluation) {xs ys : List Poly} (h : mapR (fun x => x.changeRepresentation pr .ntt) xs = .ok ys) (ct : BfvCipherText) :
    Evaluation.unpackWith pr ev ys ct = Evaluation.unpackWith pr ev xs ct := by
  have hi : ∀ (i : Nat), (idx ys i >>= fun y => y.changeRepresentation pr .ntt) = idx xs i >>= fun x => x.changeRepresentation pr .ntt := by
    intro i
    obtain ⟨h1, h2⟩ := mapR_eq_ok h
    by_cases hlt : i < xs.length
    · have e := h2 i hlt (by omega)
      have ex : idx xs i = .ok xs[i] := idx_eq_ok.mpr (List.getElem?_eq_getElem hlt)
      have ey : idx ys i = .ok (ys[i]'(by omega)) := idx_eq_ok.mpr (List.getElem?_eq_getElem (by omega))
      rw [ex, ey]
      show (ys[i]'(by omega)).changeRepresentation pr .ntt = xs[i].changeRepresentation pr .ntt
      rw [e]
      have hr : (ys[i]'(by omega)).representation = .ntt := by
        unfold Poly.changeRepresentation at e
        split at e
        · obtain ⟨_, -, e⟩ := bind_eq_ok.mp e
          rw [← Except.ok.inj e]
        · cases ‹Representation.ntt = _›
        · cases ‹Representation.ntt = _›
        · rw [← Except.ok.inj e]; assumption
        · cases e
      unfold Poly.changeRepresentation
      rw [hr]
    · have ex : idx xs i = .error .bounds := by unfold idx; rw [List.getElem?_eq_none (by omega)]
      have ey : idx ys i = .error .bounds := by unfold idx; rw [List.getElem?_eq_none (by omega)]
      rw [ex, ey]
  have hs : ∀ e i, Evaluation.unpackStep pr ev ys e i = Evaluation.unpackStep pr ev xs e i := by
    intro e i
    funext bits j
    unfold Evaluation.unpackStep
    have assoc : ∀ {zs : List Poly} (k : Poly → Res (List BfvCipherText)), (idx zs i >>= fun x => x.changeRepresentation pr .ntt >>= k) =
        (idx zs i >>= fun x => x.changeRepresentation pr .ntt) >>= k := by
      intro zs k
      cases idx zs i <;> rfl
    simp only [assoc, hi]
  unfold Evaluation.unpackWith Evaluation.unpackStage
  simp only [hs]

theorem Repair.unpackOnceC_val (ev : Evaluation) {ct : BfvCipherText} {ctx : RqContext} {xs ys : List Poly} (hc : idx ct.params.qCtxs ct.level = .ok ctx)
    (hx : Repair.genXPows pr ct.params.degree ctx = .ok xs) (hy : mapR (fun x => x.changeRepresentation pr .ntt) xs = .ok ys) :
    (Repair.unpackOnceC pr ev ct).val = Repair.unpack pr ev ct := by
  simp only [Repair.unpackOnceC, Repair.unpack, bind_val, lift_val, map_val, Poly.changeRepresentationC_val, Evaluation.unpackWithC_val, hc, hx, res_ok_bind, hy]
  rw [Evaluation.unpackWith_once pr ev hy]

namespace Server

theorem newC_val (f d : Nat) (db : List Plaintext) (P : BfvParameters) : (newC pr f d db P).val = new pr f d db P := by
  simp only [newC, new, scaledRowC, bind_val, map_val, lift_val, Poly.changeRepresentationC_val, pure_val]
  rfl

theorem productC_val (P : BfvParameters) (g : RgswCt) (ct : BfvCipherText) : (productC pr P g ct).val = product pr P g ct := by
  simp only [productC, product, bind_val, RgswCt.externalProductC_val, pure_val]

theorem selectorRgswC_val (P : BfvParameters) (g : RgswCt) (vals : List (List BfvCipherText)) (i : Nat) :
    (selectorRgswC pr P g vals i).val = selectorRgsw pr P g vals i := by
  simp only [selectorRgswC, selectorRgsw, bind_val, map_val, lift_val, productC_val, pure_val]

theorem sumStepC_val {α : Type} (f : α → Cw BfvCipherText) (s : Option BfvCipherText) (x : α) :
    (sumStepC pr f s x).val = sumStep pr (fun a => (f a).val) s x := by
  unfold sumStepC sumStep
  rw [bind_val]
  congr 1
  funext p
  cases s with
  | none => rfl
  | some s => simp only [bind_val, lift_val, pure_val]

theorem sumProductsC_val {α : Type} (P : BfvParameters) (f : α → Cw BfvCipherText) (xs : List α) :
    (sumProductsC pr P f xs).val = sumProducts pr P (fun a => (f a).val) xs := by
  simp only [sumProductsC, sumProducts, bind_val, fold_val, sumStepC_val, pure_val]

theorem selectC_val (s : Server) (P : BfvParameters) (cts : List BfvCipherText) (g : List RgswCt) : (selectC pr s P cts g).val = select pr s P cts g := by
  simp only [selectC, select, firstDimensionC, nextDimensionC, bind_val, lift_val, map_val, fold_val, sumProductsC_val, BfvCipherText.mulPolyC_val,
    productC_val]
  rfl

theorem decodeByC_val (d : Res Nat) {u : BfvCipherText → Cw (List BfvCipherText)} {v : BfvCipherText → Res (List BfvCipherText)}
    (hu : ∀ ct, (u ct).val = v ct) (s : Server) (q : List BfvCipherText) (ev : Evaluation) (P : BfvParameters) :
    (decodeByC pr d u s q ev P).val = decodeBy pr d v s q ev P := by
  simp only [decodeByC, decodeBy, bind_val, hu, lift_val, map_val, selectorRgswC_val, selectC_val]

end Server

theorem Repair.decodeC_val (s : Server) (q : List BfvCipherText) (ev : Evaluation) (P : BfvParameters) :
    (Repair.decodeC pr s q ev P).val = Repair.decode pr s q ev P :=
  Server.decodeByC_val pr _ (Repair.unpackC_val pr ev) s q ev P

end Values
end OnionPIR
