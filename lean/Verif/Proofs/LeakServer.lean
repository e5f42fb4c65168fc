import Verif.Model.LeakServer
import Verif.Proofs.LeakKeys
import Verif.Props.Utils
/-
The functions of Model/LeakServer: their values and, in the release build, their traces.
-/
namespace OnionPIR
open Lk

theorem Lk.set_val {α : Type} (l : List α) (i : Nat) (x : α) : (Lk.set l i x).val = setR l i x := rfl
theorem Lk.take_val {α : Type} (l : List α) (k : Nat) : (Lk.take l k).val = takeR l k := rfl

section Values
variable (pr : Profile)

theorem Ksk.keySwitchL_val (k : Ksk) (p : Poly) : (k.keySwitchL pr p).val = k.keySwitch pr p := by
  simp only [keySwitchL, keySwitch, switchStepL, bind_val, rassert_val, fold_val, Poly.tryFromVecU64L_val, Poly.changeRepresentationL_val, Poly.mulL_val,
    Poly.addL_val, pure_val]
  rfl

theorem Ksk.tryFromDecomposedRlwesL_val (P : BfvParameters) (cts : List BfvCipherText) :
    (tryFromDecomposedRlwesL P cts).val = tryFromDecomposedRlwes P cts := by
  simp only [tryFromDecomposedRlwesL, tryFromDecomposedRlwes, componentL, bind_val, map_val, rassert_val, idx_val, pure_val]
  rfl

theorem GaliosKey.relinearizeL_val (g : GaliosKey) (ct : BfvCipherText) : (g.relinearizeL pr ct).val = g.relinearize pr ct := by
  simp only [relinearizeL, relinearize, bind_val, rassert_val, dassert_val, idx_val, Poly.substituteL_val, Poly.changeRepresentationL_val,
    Ksk.keySwitchL_val, Poly.addL_val, pure_val]

theorem RgswCt.externalProductL_val (g : RgswCt) (ct : BfvCipherText) : (g.externalProductL pr ct).val = g.externalProduct pr ct := by
  simp only [externalProductL, externalProduct, bind_val, idx_val, Poly.changeRepresentationL_val, Ksk.keySwitchL_val, Poly.addL_val, pure_val]

theorem BfvCipherText.addL_val (a b : BfvCipherText) : (a.addL pr b).val = a.add pr b := by
  simp only [addL, add, bind_val, rassert_val, idx_val, Poly.addL_val, pure_val]

theorem BfvCipherText.subL_val (a b : BfvCipherText) : (a.subL pr b).val = a.sub pr b := by
  simp only [subL, sub, bind_val, rassert_val, idx_val, Poly.subL_val, pure_val]

theorem BfvCipherText.mulPolyL_val (a : BfvCipherText) (p : Poly) : (a.mulPolyL pr p).val = a.mulPoly pr p := by
  simp only [mulPolyL, mulPoly, bind_val, rassert_val, idx_val, Poly.mulL_val, pure_val]

namespace Evaluation

theorem unpackStepL_val (ev : Evaluation) (x : List Poly) (e i : Nat) (bits : List BfvCipherText) (j : Nat) :
    (unpackStepL pr ev x e i bits j).val = unpackStep pr ev x e i bits j := by
  simp only [unpackStepL, unpackStep, bind_val, idx_val, lift_val, GaliosKey.relinearizeL_val, BfvCipherText.addL_val, BfvCipherText.subL_val,
    Poly.changeRepresentationL_val, Poly.mulL_val, Lk.set_val]

theorem unpackWithL_val (ev : Evaluation) (x : List Poly) (ct : BfvCipherText) : (unpackWithL pr ev x ct).val = unpackWith pr ev x ct := by
  simp only [unpackWithL, unpackWith, unpackStageL, bind_val, idx_val, lift_val, map_val, Poly.mulBigL_val, fold_val, div_val, add_val, unpackStepL_val,
    rassert_val, pure_val]
  rfl

theorem unpackL_val (ev : Evaluation) (ct : BfvCipherText) : (unpackL pr ev ct).val = unpack pr ev ct := by
  simp only [unpackL, unpack, bind_val, idx_val, lift_val, unpackWithL_val]

end Evaluation

theorem Repair.unpackL_val (ev : Evaluation) (ct : BfvCipherText) : (Repair.unpackL pr ev ct).val = Repair.unpack pr ev ct := by
  simp only [Repair.unpackL, Repair.unpack, bind_val, idx_val, lift_val, Evaluation.unpackWithL_val]

namespace Server

theorem newL_val (f d : Nat) (db : List Plaintext) (P : BfvParameters) : (newL pr f d db P).val = new pr f d db P := by
  simp only [newL, new, scaledRowL, bind_val, map_val, idx_val, Poly.tryFromVecU64L_val, Poly.changeRepresentationL_val, pure_val]
  rfl

theorem productL_val (P : BfvParameters) (g : RgswCt) (ct : BfvCipherText) : (productL pr P g ct).val = product pr P g ct := by
  simp only [productL, product, bind_val, RgswCt.externalProductL_val, pure_val]

theorem selectorRgswL_val (P : BfvParameters) (g : RgswCt) (vals : List (List BfvCipherText)) (i : Nat) :
    (selectorRgswL pr P g vals i).val = selectorRgsw pr P g vals i := by
  simp only [selectorRgswL, selectorRgsw, bind_val, map_val, idx_val, productL_val, Ksk.tryFromDecomposedRlwesL_val, pure_val]

theorem sumStepL_val {α : Type} (f : α → Lk BfvCipherText) (s : Option BfvCipherText) (x : α) :
    (sumStepL pr f s x).val = sumStep pr (fun x => (f x).val) s x := by
  unfold sumStepL sumStep
  rw [bind_val]
  congr 1
  funext p
  cases s with
  | none => rfl
  | some s => simp only [bind_val, test_val, res_ok_bind, BfvCipherText.addL_val, pure_val]

theorem sumProductsL_val {α : Type} (P : BfvParameters) (f : α → Lk BfvCipherText) (xs : List α) :
    (sumProductsL pr P f xs).val = sumProducts pr P (fun x => (f x).val) xs := by
  simp only [sumProductsL, sumProducts, bind_val, fold_val, sumStepL_val, pure_val]

theorem selectL_val (s : Server) (P : BfvParameters) (cts : List BfvCipherText) (g : List RgswCt) : (selectL pr s P cts g).val = select pr s P cts g := by
  simp only [selectL, select, firstDimensionL, nextDimensionL, bind_val, lift_val, map_val, fold_val, sumProductsL_val, BfvCipherText.mulPolyL_val,
    productL_val]
  rfl

theorem decodeByL_val (d : Res Nat) {u : BfvCipherText → Lk (List BfvCipherText)} {v : BfvCipherText → Res (List BfvCipherText)}
    (hu : ∀ c, (u c).val = v c) (s : Server) (q : List BfvCipherText) (ev : Evaluation) (P : BfvParameters) :
    (decodeByL pr d u s q ev P).val = decodeBy pr d v s q ev P := by
  simp only [decodeByL, decodeBy, bind_val, idx_val, rassert_val, hu, Lk.take_val, lift_val, sub_val, mul_val, map_val, selectorRgswL_val, selectL_val]

theorem decodeL_val (s : Server) (q : List BfvCipherText) (ev : Evaluation) (P : BfvParameters) : (decodeL pr s q ev P).val = decode pr s q ev P :=
  decodeByL_val pr _ (Evaluation.unpackL_val pr ev) s q ev P

end Server

theorem Repair.decodeL_val (s : Server) (q : List BfvCipherText) (ev : Evaluation) (P : BfvParameters) :
    (Repair.decodeL pr s q ev P).val = Repair.decode pr s q ev P :=
  Server.decodeByL_val pr _ (Repair.unpackL_val pr ev) s q ev P

end Values

theorem forall₂_get {α β : Type} {R : α → β → Prop} {l : List α} {l' : List β} (h : List.Forall₂ R l l') {i : Nat} {x : α} {y : β}
    (hx : l[i]? = some x) (hy : l'[i]? = some y) : R x y := by
  induction h generalizing i with
  | nil => simp at hx
  | cons hab _ ih =>
    cases i with
    | zero => simp at hx hy; rw [← hx, ← hy]; exact hab
    | succ i => exact ih (by simpa using hx) (by simpa using hy)

theorem forall₂_set {α β : Type} {R : α → β → Prop} {l : List α} {l' : List β} (h : List.Forall₂ R l l') {x : α} {y : β} (hxy : R x y) (i : Nat) :
    List.Forall₂ R (l.set i x) (l'.set i y) := by
  induction h generalizing i with
  | nil => simp
  | cons hab h ih =>
    cases i with
    | zero => exact .cons hxy h
    | succ i => exact .cons hab (ih i)

theorem forall₂_zip {α β γ δ : Type} {R : α → β → Prop} {S : γ → δ → Prop} {l : List α} {l' : List β} {k : List γ} {k' : List δ}
    (h : List.Forall₂ R l l') (hk : List.Forall₂ S k k') : List.Forall₂ (fun x y => R x.1 y.1 ∧ S x.2 y.2) (l.zip k) (l'.zip k') := by
  induction h generalizing k k' with
  | nil => simp
  | cons hab h ih =>
    cases hk with
    | nil => simp
    | cons hcd hk => exact .cons ⟨hab, hcd⟩ (ih hk)

theorem Lk.Sim.idxR {α β : Type} {R : α → β → Prop} {l : List α} {l' : List β} (h : List.Forall₂ R l l') (i : Nat) : Sim R (Lk.idx l i) (Lk.idx l' i) :=
  (Sim.idx l l' i).mono fun _ _ hx => forall₂_get h hx.1 hx.2

theorem Lk.Sim.setR {α β : Type} {R : α → β → Prop} {l : List α} {l' : List β} (h : List.Forall₂ R l l') (i : Nat) {x : α} {y : β} (hxy : R x y) :
    Sim (List.Forall₂ R) (Lk.set l i x) (Lk.set l' i y) := by
  intro a b ha hb
  refine ⟨rfl, ?_⟩
  rw [Lk.set_val] at ha hb
  unfold OnionPIR.setR at ha hb
  split at ha <;> split at hb <;> simp_all
  rw [← ha, ← hb]
  exact forall₂_set h hxy i

theorem Lk.Sim.takeR {α β : Type} {R : α → β → Prop} {l : List α} {l' : List β} (h : List.Forall₂ R l l') (k : Nat) :
    Sim (List.Forall₂ R) (Lk.take l k) (Lk.take l' k) := by
  intro a b ha hb
  refine ⟨rfl, ?_⟩
  rw [Lk.take_val] at ha hb
  unfold OnionPIR.takeR at ha hb
  split at ha <;> split at hb <;> simp_all
  rw [← ha, ← hb]
  exact List.forall₂_take k h

theorem forall₂_chunks {α β : Type} {R : α → β → Prop} (size : Nat) : ∀ (fuel : Nat) {l : List α} {l' : List β}, List.Forall₂ R l l' →
    List.Forall₂ (List.Forall₂ R) (chunksAux size fuel l) (chunksAux size fuel l')
  | 0, _, _, _ => .nil
  | _ + 1, [], [], _ => .nil
  | fuel + 1, _ :: _, _ :: _, h => .cons (List.forall₂_take size h) (forall₂_chunks size fuel (List.forall₂_drop size h))

theorem Lk.Sim.chunks {α β : Type} {R : α → β → Prop} {l : List α} {l' : List β} (h : List.Forall₂ R l l') (size : Nat) :
    Sim (List.Forall₂ (List.Forall₂ R)) (Lk.lift (chunksR size l)) (Lk.lift (chunksR size l')) := by
  refine Sim.lift fun a b ha hb => ?_
  unfold chunksR at ha hb
  obtain ⟨-, -, ha⟩ := bind_eq_ok.mp ha
  obtain ⟨-, -, hb⟩ := bind_eq_ok.mp hb
  rw [← Except.ok.inj ha, ← Except.ok.inj hb, h.length_eq]
  exact forall₂_chunks _ _ h

/-- The same parameters, level and shape. -/
def BfvCipherText.Like (a b : BfvCipherText) : Prop := a.params = b.params ∧ a.level = b.level ∧ List.Forall₂ Poly.Like a.cts b.cts
/-- The same contexts and shape. -/
def Ksk.Like (a b : Ksk) : Prop :=
  a.ctContext = b.ctContext ∧ a.kskContext = b.kskContext ∧ List.Forall₂ Poly.Like a.c0 b.c0 ∧ List.Forall₂ Poly.Like a.c1 b.c1
/-- The same substitution, level and shape. -/
def GaliosKey.Like (a b : GaliosKey) : Prop := a.level = b.level ∧ a.substitution = b.substitution ∧ a.gk.Like b.gk
/-- The same shape. -/
def RgswCt.Like (a b : RgswCt) : Prop := a.ksk0.Like b.ksk0 ∧ a.ksk1.Like b.ksk1
/-- Galois keys of the same shape for every exponent that `unpack` uses. -/
def Evaluation.Like (n : Nat) (a b : Evaluation) : Prop :=
  (∀ i, 2 ^ i < n → ∀ g g', a.gk.lookup (n / 2 ^ i + 1) = some g → b.gk.lookup (n / 2 ^ i + 1) = some g' → g.Like g') ∧ a.skRgsw.Like b.skRgsw

namespace Ksk
open Poly

theorem switchStepL_sim (c : RqContext) {st st' : Poly × Poly} (hst : st.1.Like st'.1 ∧ st.2.Like st'.2) {x x' : List Nat × Poly × Poly}
    (hx : SameLen x.1 x'.1 ∧ Poly.Like x.2.1 x'.2.1 ∧ Poly.Like x.2.2 x'.2.2) :
    Sim (fun a b => a.1.Like b.1 ∧ a.2.Like b.2) (switchStepL .release c st x) (switchStepL .release c st' x') :=
  (tryFromVecU64L_sim c hx.1).bind fun _ _ hd => (changeRepresentationL_sim hd _).bind fun _ _ hd => (mulL_sim hd hx.2.1).bind fun _ _ hb =>
    (mulL_sim hd hx.2.2).bind fun _ _ ha => (addL_sim hst.1 hb).bind fun _ _ h0 => (addL_sim hst.2 ha).bind fun _ _ h1 => Sim.pure ⟨h0, h1⟩

theorem keySwitchL_sim {k k' : Ksk} (hk : k.Like k') {p p' : Poly} (hp : p.Like p') :
    Sim (fun a b => a.1.Like b.1 ∧ a.2.Like b.2) (k.keySwitchL .release p) (k'.keySwitchL .release p') := by
  obtain ⟨h1, h2, h3, h4⟩ := hk
  unfold keySwitchL
  rw [h1, h2, hp.1, hp.2.1]
  refine (Sim.rassert Iff.rfl).bind fun _ _ _ => (Sim.rassert Iff.rfl).bind fun _ _ _ => ?_
  exact Sim.fold₂ (forall₂_zip hp.2.2 (forall₂_zip h3 h4)) (fun _ _ _ _ hx hst => switchStepL_sim _ hst hx) ⟨Poly.Like.refl _, Poly.Like.refl _⟩

theorem tryFromDecomposedRlwesL_sim (P : BfvParameters) {cts cts' : List BfvCipherText} (h : List.Forall₂ BfvCipherText.Like cts cts') :
    Sim Ksk.Like (tryFromDecomposedRlwesL P cts) (tryFromDecomposedRlwesL P cts') := by
  have comp : ∀ i, Sim (List.Forall₂ Poly.Like) (Lk.map (componentL P i) cts) (Lk.map (componentL P i) cts') := fun i =>
    Sim.map h fun a b hab => (Sim.rassert (by rw [hab.1])).bind fun _ _ _ => Sim.idxR hab.2.2 i
  refine (comp 0).bind fun _ _ h0 => (comp 1).bind fun _ _ h1 => (Sim.same _).bind fun c c' hc => ?_
  subst hc
  exact Sim.pure ⟨rfl, rfl, h0, h1⟩

end Ksk

open Poly in
theorem GaliosKey.relinearizeL_sim {g g' : GaliosKey} (hg : g.Like g') {c c' : BfvCipherText} (hc : c.Like c') :
    Sim BfvCipherText.Like (g.relinearizeL .release c) (g'.relinearizeL .release c') := by
  obtain ⟨g1, g2, g3⟩ := hg
  obtain ⟨c1, c2, c3⟩ := hc
  unfold relinearizeL
  rw [c2, g1, g2]
  refine (Sim.rassert Iff.rfl).bind fun _ _ _ => (Sim.idxR c3 0).bind fun x x' hx => ?_
  refine Sim.bind (R := fun _ _ => True) (Sim.silent rfl rfl) fun _ _ _ => (Sim.idxR c3 1).bind fun y y' hy => ?_
  exact (substituteL_sim hy _).bind fun _ _ hy => (changeRepresentationL_sim hy _).bind fun _ _ hy => (Ksk.keySwitchL_sim g3 hy).bind fun _ _ hd =>
    (substituteL_sim hx _).bind fun _ _ hx => (addL_sim hd.1 hx).bind fun _ _ h0 => Sim.pure ⟨c1, rfl, .cons h0 (.cons hd.2 .nil)⟩

open Poly in
theorem RgswCt.externalProductL_sim {g g' : RgswCt} (hg : g.Like g') {c c' : BfvCipherText} (hc : c.Like c') :
    Sim (fun a b => Poly.Like a.1 b.1 ∧ Poly.Like a.2 b.2) (g.externalProductL .release c) (g'.externalProductL .release c') :=
  (Sim.idxR hc.2.2 1).bind fun _ _ h1 => (Sim.idxR hc.2.2 0).bind fun _ _ h0 => (changeRepresentationL_sim h1 _).bind fun _ _ h1 =>
    (changeRepresentationL_sim h0 _).bind fun _ _ h0 => (Ksk.keySwitchL_sim hg.1 h1).bind fun _ _ hx => (Ksk.keySwitchL_sim hg.2 h0).bind fun _ _ hy =>
    (addL_sim hy.1 hx.1).bind fun _ _ r0 => (addL_sim hy.2 hx.2).bind fun _ _ r1 => Sim.pure ⟨r0, r1⟩

namespace BfvCipherText

theorem addL_sim {a a' b b' : BfvCipherText} (ha : a.Like a') (hb : b.Like b') : Sim BfvCipherText.Like (a.addL .release b) (a'.addL .release b') :=
  (Sim.rassert (by rw [ha.1, hb.1])).bind fun _ _ _ => (Sim.rassert (by rw [ha.2.1, hb.2.1])).bind fun _ _ _ => (Sim.idxR ha.2.2 0).bind fun _ _ a0 =>
    (Sim.idxR hb.2.2 0).bind fun _ _ b0 => (Poly.addL_sim a0 b0).bind fun _ _ c0 => (Sim.idxR ha.2.2 1).bind fun _ _ a1 =>
    (Sim.idxR hb.2.2 1).bind fun _ _ b1 => (Poly.addL_sim a1 b1).bind fun _ _ c1 => Sim.pure ⟨ha.1, ha.2.1, .cons c0 (.cons c1 .nil)⟩

theorem subL_sim {a a' b b' : BfvCipherText} (ha : a.Like a') (hb : b.Like b') : Sim BfvCipherText.Like (a.subL .release b) (a'.subL .release b') :=
  (Sim.rassert (by rw [ha.1, hb.1])).bind fun _ _ _ => (Sim.rassert (by rw [ha.2.1, hb.2.1])).bind fun _ _ _ => (Sim.idxR ha.2.2 0).bind fun _ _ a0 =>
    (Sim.idxR hb.2.2 0).bind fun _ _ b0 => (Poly.subL_sim a0 b0).bind fun _ _ c0 => (Sim.idxR ha.2.2 1).bind fun _ _ a1 =>
    (Sim.idxR hb.2.2 1).bind fun _ _ b1 => (Poly.subL_sim a1 b1).bind fun _ _ c1 => Sim.pure ⟨ha.1, ha.2.1, .cons c0 (.cons c1 .nil)⟩

theorem mulPolyL_sim {a a' : BfvCipherText} {p p' : Poly} (ha : a.Like a') (hp : p.Like p') :
    Sim BfvCipherText.Like (a.mulPolyL .release p) (a'.mulPolyL .release p') :=
  (Sim.idxR ha.2.2 0).bind fun _ _ a0 => (Sim.rassert (by rw [hp.1, a0.1])).bind fun _ _ _ => (Sim.rassert (by rw [hp.2.1])).bind fun _ _ _ =>
    (Poly.mulL_sim a0 hp).bind fun _ _ c0 => (Sim.idxR ha.2.2 1).bind fun _ _ a1 => (Poly.mulL_sim a1 hp).bind fun _ _ c1 =>
    Sim.pure ⟨ha.1, ha.2.1, .cons c0 (.cons c1 .nil)⟩

end BfvCipherText

namespace Evaluation

theorem unpackStepL_sim {ev ev' : Evaluation} (x : List Poly) (e i : Nat)
    (hg : ∀ g g', ev.gk.lookup e = some g → ev'.gk.lookup e = some g' → g.Like g') {bits bits' : List BfvCipherText}
    (hb : List.Forall₂ BfvCipherText.Like bits bits') (j : Nat) :
    Sim (List.Forall₂ BfvCipherText.Like) (unpackStepL .release ev x e i bits j) (unpackStepL .release ev' x e i bits' j) := by
  refine (Sim.idxR hb j).bind fun c c' hc => Sim.bind (R := GaliosKey.Like) (Sim.lift fun g g' h1 h2 => ?_) fun g g' hg => ?_
  · refine hg g g' ?_ ?_
    · cases h : List.lookup e ev.gk <;> rw [h] at h1 <;> simp_all [unwrapR]
    · cases h : List.lookup e ev'.gk <;> rw [h] at h2 <;> simp_all [unwrapR]
  refine (GaliosKey.relinearizeL_sim hg hc).bind fun r r' hr => (BfvCipherText.addL_sim hc hr).bind fun a a' ha => ?_
  refine (Sim.same (Lk.idx x i)).bind fun y _ hy => ?_
  subst hy
  refine (Sim.same _).bind fun z _ hz => ?_
  subst hz
  exact (BfvCipherText.subL_sim hc hr).bind fun o o' ho => (Sim.idxR ho.2.2 0).bind fun _ _ o0 => (Poly.mulL_sim o0 (Poly.Like.refl _)).bind fun _ _ c0 =>
    (Sim.idxR ho.2.2 1).bind fun _ _ o1 => (Poly.mulL_sim o1 (Poly.Like.refl _)).bind fun _ _ c1 => (Sim.setR hb j ha).bind fun _ _ hb =>
    Sim.setR hb _ ⟨ho.1, ho.2.1, .cons c0 (.cons c1 .nil)⟩

theorem unpackWithL_sim {ev ev' : Evaluation} (x : List Poly) {c c' : BfvCipherText} (hc : c.Like c') (hn : 1 ≤ c.params.degree)
    (hn2 : c.params.degree < 2 ^ 63) (he : ev.Like c.params.degree ev') :
    Sim (List.Forall₂ BfvCipherText.Like) (unpackWithL .release ev x c) (unpackWithL .release ev' x c') := by
  obtain ⟨h1, h2, h3⟩ := hc
  unfold unpackWithL
  rw [← h1, ← h2]
  refine (Sim.same _).bind fun ctx _ hctx => ?_
  subst hctx
  refine (Sim.same _).bind fun ninv _ hninv => ?_
  subst hninv
  refine (Sim.map h3 fun a b hab => Poly.mulBigL_sim hab _).bind fun cs cs' hcs => ?_
  refine Sim.bind (R := fun a b => a = b ∧ 2 ^ a ≤ c.params.degree) (Sim.lift fun a b ha hb => ⟨Except.ok.inj (ha.symm.trans hb), ?_⟩) fun lg lg' hlg => ?_
  · obtain ⟨r, hr, hle, -⟩ := c13_ilog2 .release (w := 64) (by decide) hn (by omega)
    rw [Except.ok.inj (ha.symm.trans hr)]
    exact hle
  obtain ⟨rfl, hlg⟩ := hlg
  refine Sim.bind (R := List.Forall₂ BfvCipherText.Like) ?_ fun b b' hb => (Sim.rassert (by rw [hb.length_eq])).bind fun _ _ _ => Sim.pure hb
  refine Sim.fold (fun b b' i hi hb => ?_) ?_
  · have hi' : 2 ^ i < c.params.degree := lt_of_lt_of_le (Nat.pow_lt_pow_right (by decide) (List.mem_range.mp hi)) hlg
    refine Sim.bind (R := fun a b => a = b ∧ a = c.params.degree / 2 ^ i) (fun a b ha hb => ⟨rfl, ?_⟩) fun d d' hd => ?_
    · refine ⟨Except.ok.inj (ha.symm.trans hb), ?_⟩
      rw [div_val, divR_ok (by positivity)] at ha
      exact (Except.ok.inj ha).symm
    · obtain ⟨rfl, hd⟩ := hd
      refine Sim.bind (R := fun a b => a = b ∧ a = c.params.degree / 2 ^ i + 1) (fun a b ha hb => ⟨rfl, ?_⟩) fun e e' he' => ?_
      · refine ⟨Except.ok.inj (ha.symm.trans hb), ?_⟩
        rw [add_val, hd] at ha
        have : c.params.degree / 2 ^ i ≤ c.params.degree := Nat.div_le_self _ _
        rw [addW_ok (by omega)] at ha
        exact (Except.ok.inj ha).symm
      · obtain ⟨rfl, rfl⟩ := he'
        exact Sim.fold (fun b b' j _ hb => unpackStepL_sim x _ i (he.1 i hi') hb j) hb
  · rw [List.forall₂_iff_get]
    simp only [List.length_replicate, List.get_eq_getElem, List.getElem_replicate, true_and]
    exact fun _ _ _ => ⟨rfl, rfl, hcs⟩

theorem unpackL_sim {ev ev' : Evaluation} {c c' : BfvCipherText} (hc : c.Like c') (hn : 1 ≤ c.params.degree) (hn2 : c.params.degree < 2 ^ 63)
    (he : ev.Like c.params.degree ev') : Sim (List.Forall₂ BfvCipherText.Like) (unpackL .release ev c) (unpackL .release ev' c') := by
  unfold unpackL
  rw [← hc.1, ← hc.2.1]
  refine (Sim.same _).bind fun a _ ha => ?_
  subst ha
  refine (Sim.same _).bind fun x _ hx => ?_
  subst hx
  exact (Sim.same _).bind fun _ _ _ => unpackWithL_sim x hc hn hn2 he

end Evaluation

theorem Repair.unpackL_sim {ev ev' : Evaluation} {c c' : BfvCipherText} (hc : c.Like c') (hn : 1 ≤ c.params.degree) (hn2 : c.params.degree < 2 ^ 63)
    (he : ev.Like c.params.degree ev') : Sim (List.Forall₂ BfvCipherText.Like) (Repair.unpackL .release ev c) (Repair.unpackL .release ev' c') := by
  unfold Repair.unpackL
  rw [← hc.1, ← hc.2.1]
  refine (Sim.same _).bind fun a _ ha => ?_
  subst ha
  refine (Sim.same _).bind fun x _ hx => ?_
  subst hx
  exact (Sim.same _).bind fun _ _ _ => Evaluation.unpackWithL_sim x hc hn hn2 he

namespace Server

theorem newL_sim (f d : Nat) (P : BfvParameters) {db db' : List Plaintext} (h : List.Forall₂ (fun p p' => SameLen p.values p'.values) db db') :
    Sim (fun s s' => List.Forall₂ Poly.Like s.dbScaled s'.dbScaled) (newL .release f d db P) (newL .release f d db' P) := by
  refine (Sim.map (R := Poly.Like) h fun p p' hp => ?_).bind fun _ _ h => Sim.pure h
  refine (Sim.same _).bind fun c _ hc => ?_
  subst hc
  exact (Poly.tryFromVecU64L_sim _ hp).bind fun _ _ hx => Poly.changeRepresentationL_sim hx _

theorem productL_sim (P : BfvParameters) {g g' : RgswCt} (hg : g.Like g') {c c' : BfvCipherText} (hc : c.Like c') :
    Sim BfvCipherText.Like (productL .release P g c) (productL .release P g' c') :=
  (RgswCt.externalProductL_sim hg hc).bind fun _ _ h => Sim.pure ⟨rfl, rfl, .cons h.1 (.cons h.2 .nil)⟩

theorem selectorRgswL_sim (P : BfvParameters) {g g' : RgswCt} (hg : g.Like g') {v v' : List (List BfvCipherText)}
    (hv : List.Forall₂ (List.Forall₂ BfvCipherText.Like) v v') (i : Nat) :
    Sim RgswCt.Like (selectorRgswL .release P g v i) (selectorRgswL .release P g' v' i) :=
  (Sim.map hv fun _ _ h => Sim.idxR h i).bind fun _ _ hl => (Sim.map hl fun _ _ h => productL_sim P hg h).bind fun _ _ hu =>
    (Ksk.tryFromDecomposedRlwesL_sim P hl).bind fun _ _ k1 => (Ksk.tryFromDecomposedRlwesL_sim P hu).bind fun _ _ k0 => Sim.pure ⟨k0, k1⟩

theorem sumProductsL_sim {α β : Type} {R : α → β → Prop} (P : BfvParameters) {f : α → Lk BfvCipherText} {g : β → Lk BfvCipherText}
    (hf : ∀ a b, R a b → Sim BfvCipherText.Like (f a) (g b)) {l : List α} {l' : List β} (h : List.Forall₂ R l l') :
    Sim BfvCipherText.Like (sumProductsL .release P f l) (sumProductsL .release P g l') := by
  refine Sim.bind (R := Option.Rel BfvCipherText.Like) (Sim.fold₂ h (fun s s' a b hab hs => ?_) .none) fun s s' hs => ?_
  · refine (hf a b hab).bind fun p p' hp => ?_
    cases hs with
    | none => exact (Sim.test true).bind fun _ _ _ => Sim.pure (.some hp)
    | some hs => exact (Sim.test false).bind fun _ _ _ => (BfvCipherText.addL_sim hs hp).bind fun _ _ h => Sim.pure (.some h)
  · cases hs with
    | none => exact Sim.pure ⟨rfl, rfl, .nil⟩
    | some hs => exact Sim.pure hs

theorem selectL_sim (P : BfvParameters) {s s' : Server} (h1 : s.firstDim = s'.firstDim) (h2 : s.dim = s'.dim)
    (h3 : List.Forall₂ Poly.Like s.dbScaled s'.dbScaled) {c c' : List BfvCipherText} (hc : List.Forall₂ BfvCipherText.Like c c') {g g' : List RgswCt}
    (hg : List.Forall₂ RgswCt.Like g g') : Sim (List.Forall₂ BfvCipherText.Like) (selectL .release s P c g) (selectL .release s' P c' g') := by
  unfold selectL
  rw [h1, h2]
  refine (Sim.chunks hg _).bind fun b b' hb => Sim.bind (R := List.Forall₂ BfvCipherText.Like) ?_ fun d d' hd => ?_
  · exact (Sim.chunks h3 _).bind fun _ _ hch => Sim.map hch fun ps ps' hps =>
      sumProductsL_sim P (fun x y hxy => BfvCipherText.mulPolyL_sim hxy.1 hxy.2) (forall₂_zip hc hps)
  · exact Sim.fold₂ (R := List.Forall₂ BfvCipherText.Like) hb (fun d d' g g' hg hd => (Sim.chunks hd _).bind fun _ _ hch => Sim.map hch fun ps ps' hps =>
      sumProductsL_sim P (fun x y hxy => productL_sim P hxy.1 hxy.2) (forall₂_zip hg hps)) hd

theorem decodeByL_sim (P : BfvParameters) (dims : Res Nat) {u u' : BfvCipherText → Lk (List BfvCipherText)} {s s' : Server}
    (h1 : s.firstDim = s'.firstDim) (h2 : s.dim = s'.dim) (h3 : List.Forall₂ Poly.Like s.dbScaled s'.dbScaled) {q q' : List BfvCipherText}
    (hq : List.Forall₂ (fun c c' => c.Like c' ∧ Sim (List.Forall₂ BfvCipherText.Like) (u c) (u' c')) q q') {ev ev' : Evaluation}
    (he : ev.skRgsw.Like ev'.skRgsw) :
    Sim (List.Forall₂ BfvCipherText.Like) (decodeByL .release dims u s q ev P) (decodeByL .release dims u' s' q' ev' P) := by
  unfold decodeByL
  rw [h1, h2]
  refine (Sim.same _).bind fun c _ hc => ?_
  subst hc
  refine (Sim.rassert (by rw [hq.length_eq])).bind fun _ _ _ => (Sim.idxR hq 0).bind fun c0 c0' h0 => h0.2.bind fun b b' hb => ?_
  refine (Sim.takeR hb _).bind fun fd fd' hfd => (Sim.same _).bind fun n _ hn => ?_
  subst hn
  refine (Sim.same _).bind fun d _ hd => ?_
  subst hd
  refine (Sim.same _).bind fun k _ hk => ?_
  subst hk
  refine (Sim.map (R := List.Forall₂ BfvCipherText.Like) (List.forall₂_drop 1 hq) fun a b hab => hab.2.bind fun _ _ h => Sim.takeR h _).bind fun v v' hv => ?_
  refine (Sim.map (R := RgswCt.Like) (forall₂_eq _) fun i i' hi => ?_).bind fun g g' hg => selectL_sim P h1 h2 h3 hfd hg
  subst hi
  exact selectorRgswL_sim P he hv i

end Server
end OnionPIR
