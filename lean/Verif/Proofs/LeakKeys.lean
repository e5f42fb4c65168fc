import Verif.Model.LeakKeys
import Verif.Proofs.LeakRelease
/-
The functions of Model/LeakKeys: their values and, in the release build, their traces.
-/
namespace OnionPIR
open Lk

namespace Modulus
variable (pr : Profile) (m : Modulus)

theorem scalarMulVecL_val (a : List Nat) (b : Nat) : (m.scalarMulVecL pr a b).val = m.scalarMulVec pr a b := by
  simp only [scalarMulVecL, scalarMulVec, bind_val, shoupL_val, map_val, lazyMulShoupL_val]

theorem reduceBigUintL_val (a : Nat) : (m.reduceBigUintL a).val = m.reduceBigUint a := rfl

end Modulus

namespace Poly
open Modulus
variable (pr : Profile)

theorem tryFromVecU64L_val (ctx : RqContext) (a : List Nat) : (tryFromVecU64L pr ctx a).val = tryFromVecU64 pr ctx a := by
  simp only [tryFromVecU64L, tryFromVecU64, fromRows, bind_val, zipMut_val, reduceVecU64L_val, lift_val, pure_val]

theorem tryFromBigintL_val (ctx : RqContext) (a : List Nat) : (tryFromBigintL ctx a).val = tryFromBigint ctx a := by
  simp only [tryFromBigintL, tryFromBigint, fromRows, reduceVecBigUint, bind_val, zipMut_val, map_val, reduceBigUintL_val, lift_val, pure_val]

theorem mulBigL_val (a : Poly) (b : Nat) : (a.mulBigL pr b).val = a.mulBig pr b := by
  simp only [mulBigL, mulBig, bind_val, tryFromBigintL_val, changeRepresentationL_val, rassert_val, mulL_val]

theorem substValueL_val (d p : Nat) (q : Modulus) (t o : Nat) : (substValueL pr d p q t o).val = substValue pr d p q t o := by
  simp only [substValueL, substValue, bind_val, test_val, res_ok_bind, ite_val, Modulus.subL_val, Modulus.addL_val, decide_eq_true_eq]

theorem substStepL_val (d e : Nat) (q : Modulus) (src : List Nat) (st : List Nat × Nat) (j : Nat) :
    (substStepL pr d e q src st j).val = substStep pr d e q src st j := by
  simp only [substStepL, substStep, bind_val, idx_val, substValueL_val, add_val, pure_val]

theorem substRowPowerL_val (d e : Nat) (z s : List Nat) (q : Modulus) : (substRowPowerL pr d e z s q).val = substRowPower pr d e z s q := by
  simp only [substRowPowerL, substRowPower, bind_val, fold_val, substStepL_val, pure_val]

theorem substRowNttL_val (a b z s : List Nat) : (substRowNttL a b z s).val = substRowNtt a b z s := by
  simp only [substRowNttL, substMoveL, substRowNtt, bind_val, fold_val, idx_val]

theorem substituteL_val (p : Poly) (a : Substitution) : (p.substituteL pr a).val = p.substitute pr a := by
  unfold substituteL substitute
  cases p.representation <;> simp only [bind_val, zip3Mut_val, zipMut_val, substRowPowerL_val, substRowNttL_val, pure_val]

end Poly

theorem Plaintext.toPolyL_val (pr : Profile) (p : Plaintext) : (p.toPolyL pr).val = p.toPoly pr := by
  simp only [toPolyL, toPoly, bind_val, idx_val, lift_val, Modulus.scalarMulVecL_val, Poly.tryFromVecU64L_val, Poly.changeRepresentationL_val, Poly.mulL_val]

theorem SecretKey.encryptL_val (pr : Profile) (sk : SecretKey) (pt : Plaintext) (a : Nat → Nat → Nat) (rng : Nat → Nat) :
    (sk.encryptL pr pt a rng).val = sk.encrypt pr pt a rng := by
  simp only [encryptL, encrypt, bind_val, Plaintext.toPolyL_val, encryptPolyL_val]

namespace Ksk
variable (pr : Profile)

theorem newC0L_val (P : BfvParameters) (c : RqContext) (s src c1 : Poly) (g : Nat) (rng : Nat → Nat) :
    (newC0L pr P c s src c1 g rng).val = newC0 pr P c s src c1 g rng := by
  simp only [newC0L, newC0, bind_val, Poly.mulL_val, Poly.randomSmallL_val, Poly.subL_val, Poly.mulBigL_val, Poly.addL_val]

theorem newL_val (sk : SecretKey) (src : Poly) (l k : Nat) (a : Nat → Nat → Nat → Nat) (rng : Nat → Nat → Nat) :
    (newL pr sk src l k a rng).val = new pr sk src l k a rng := by
  simp only [newL, new, bind_val, idx_val, SecretKey.polyNttL_val, map_val, newC0L_val, pure_val]

theorem newWithPtL_val (sk : SecretKey) (src : Plaintext) (l k : Nat) (a : Nat → Nat → Nat → Nat) (rng : Nat → Nat → Nat) :
    (newWithPtL pr sk src l k a rng).val = newWithPt pr sk src l k a rng := by
  simp only [newWithPtL, newWithPt, bind_val, Plaintext.toPolyL_val, newL_val]

end Ksk

theorem GaliosKey.newL_val (pr : Profile) (sk : SecretKey) (i : Substitution) (l : Nat) (a : Nat → Nat → Nat → Nat) (rng : Nat → Nat → Nat) :
    (newL pr sk i l a rng).val = new pr sk i l a rng := by
  simp only [newL, new, bind_val, rassert_val, idx_val, Poly.tryFromVecI64L_val, Poly.substituteL_val, Poly.changeRepresentationL_val, Ksk.newL_val, pure_val]

theorem RelinearizationKey.newL_val (pr : Profile) (sk : SecretKey) (l : Nat) (a : Nat → Nat → Nat → Nat) (rng : Nat → Nat → Nat) :
    (newL pr sk l a rng).val = new pr sk l a rng := by
  simp only [newL, new, bind_val, idx_val, SecretKey.polyNttL_val, Poly.mulL_val, Ksk.newL_val, pure_val]

namespace RgswCt
variable (pr : Profile)

theorem encryptPolyL_val (sk : SecretKey) (m : Poly) (a0 a1 : Nat → Nat → Nat → Nat) (r0 r1 : Nat → Nat → Nat) :
    (encryptPolyL pr sk m a0 a1 r0 r1).val = encryptPoly pr sk m a0 a1 r0 r1 := by
  simp only [encryptPolyL, encryptPoly, bind_val, rassert_val, lift_val, SecretKey.polyNttL_val, Poly.mulL_val, Ksk.newL_val, pure_val]

theorem encryptL_val (sk : SecretKey) (m : Plaintext) (a0 a1 : Nat → Nat → Nat → Nat) (r0 r1 : Nat → Nat → Nat) :
    (encryptL pr sk m a0 a1 r0 r1).val = encrypt pr sk m a0 a1 r0 r1 := by
  simp only [encryptL, encrypt, bind_val, rassert_val, idx_val, Poly.tryFromVecU64L_val, Poly.changeRepresentationL_val, SecretKey.polyNttL_val,
    Poly.mulL_val, Ksk.newL_val, pure_val]

end RgswCt

namespace Evaluation
variable (pr : Profile)

theorem buildStepL_val (sk : SecretKey) (P : BfvParameters) (a : Nat → Nat → Nat → Nat → Nat) (rng : Nat → Nat → Nat → Nat) (m : List (Nat × GaliosKey))
    (i : Nat) : (buildStepL pr sk P a rng m i).val = buildStep pr sk P a rng m i := by
  simp only [buildStepL, buildStep, bind_val, lift_val, div_val, add_val, idx_val, GaliosKey.newL_val, pure_val]

theorem buildL_val (sk : SecretKey) (P : BfvParameters) (a : Nat → Nat → Nat → Nat → Nat) (rng : Nat → Nat → Nat → Nat)
    (a0 a1 : Nat → Nat → Nat → Nat) (r0 r1 : Nat → Nat → Nat) : (buildL pr sk P a rng a0 a1 r0 r1).val = build pr sk P a rng a0 a1 r0 r1 := by
  simp only [buildL, build, bind_val, lift_val, fold_val, buildStepL_val, idx_val, SecretKey.polyNttL_val, RgswCt.encryptPolyL_val, pure_val]

end Evaluation

theorem mapR_pure {α β : Type} (f : α → β) (l : List α) : mapR (fun a => (.ok (f a) : Res β)) l = .ok (l.map f) := by
  induction l with
  | nil => rfl
  | cons a l ih => simp only [mapR, ih, res_ok_bind, List.map_cons]

namespace Client
variable (pr : Profile)

theorem selectorL_val (d q : Nat) : (selectorL d q).val = selector d q := by
  simp only [selectorL, selector, bind_val, rassert_val, map_val, indicator, pure_val, mapR_pure]

theorem encodeL_val (c : Client) (q : List Nat) (n : Nat) : (encodeL pr c q n).val = encode pr c q n := by
  simp only [encodeL, encode, bind_val, idx_val, rassert_val, map_val, indicator, pure_val, mapR_pure, res_ok_bind, div_val, lift_val, selectorL_val]

end Client

namespace Pvw
variable (pr : Profile) (q : Modulus)

theorem dotL_val (n : Nat) (sk : PvwSk) (l : Nat) (a : List Nat) : (dotL pr q n sk l a).val = dot pr q n sk l a := by
  simp only [dotL, dot, fold_val, dotStepL, dotStep, bind_val, idx_val, Modulus.mulL_val, Modulus.addL_val]
  rfl

theorem genPkL_val (sk : PvwSk) (P : PvwParams) (a : Nat → Nat → Nat) (rng : Nat → Nat → Nat) : (genPkL pr sk P a rng).val = genPk pr sk P a rng := by
  simp only [genPkL, genPk, pkColumnL, pkColumn, pkEntryL, pkEntry, pkRowL, bind_val, lift_val, map_val, sampleVecCbdL_val, Modulus.reduceVecI64L_val,
    idx_val, dotL_val, Modulus.addL_val, pure_val]
  rfl

theorem decryptStepL_val (P : PvwParams) (sk : PvwSk) (a b : List Nat) (l : Nat) : (decryptStepL pr P q sk a b l).val = decryptStep pr P q sk a b l := by
  simp only [decryptStepL, decryptStep, bind_val, dotL_val, idx_val, Modulus.subL_val, setL]

theorem roundL_val (t v : Nat) : (roundL pr t v).val = round pr t v := by
  simp only [roundL, round, bind_val, add_val, div_val, pure_val]

theorem decryptL_val (sk : PvwSk) (P : PvwParams) (ct : PvwCiphertext) : (decryptL pr sk P ct).val = decrypt pr sk P ct := by
  simp only [decryptL, decrypt, bind_val, lift_val, fold_val, decryptStepL_val, map_val, roundL_val]

theorem accStepL_val (pk : PvwPk) (c : PvwCiphertext → List Nat) (m e : Nat) (acc : List Nat) (i : Nat) :
    (accStepL pr q pk c m e acc i).val = accStep pr q pk c m e acc i := by
  simp only [accStepL, accStep, bind_val, idx_val, Modulus.mulL_val, Modulus.addL_val, setL]

theorem encryptL_val (pk : PvwPk) (P : PvwParams) (msg : List Nat) (e : Nat → Nat) : (encryptL pr pk P msg e).val = encrypt pr pk P msg e := by
  simp only [encryptL, encrypt, encryptStepL, addMessageL, addMessage, bind_val, lift_val, fold_val, accStepL_val, zipMut_val, mul_val,
    Modulus.addL_val, pure_val]
  rfl

end Pvw

theorem Lk.Sim.same {α : Type} (x : Lk α) : Sim (fun a b => a = b) x x := fun _ _ ha hb => ⟨rfl, Except.ok.inj (ha.symm.trans hb)⟩

namespace Modulus

theorem scalarMulVecL_sim (m : Modulus) {a a' : List Nat} (h : SameLen a a') (b : Nat) :
    Sim SameLen (m.scalarMulVecL .release a b) (m.scalarMulVecL .release a' b) :=
  (Sim.same _).bind fun x y hxy => by subst hxy; exact map_sim (fun _ => lazyMulShoupL_silent m _ _ _) h

end Modulus

namespace Poly
open Modulus

theorem tryFromVecU64L_sim (ctx : RqContext) {a b : List Nat} (h : SameLen a b) :
    Sim Like (tryFromVecU64L .release ctx a) (tryFromVecU64L .release ctx b) := by
  refine (Sim.zipMut (R := SameLen) (P := fun x y => x = y) (List.forall₂_same.mpr fun _ _ => rfl) (forall₂_eq _) ?_).bind
    fun _ _ h => Sim.pure ⟨rfl, rfl, h⟩
  intro x y q q' hxy hq
  subst hq
  exact (map_sim (fun _ => reduceL_silent q _) h).bind fun v v' hv => Sim.lift fun s t hs ht => by
    rw [SameLen, copyPrefix_len hs, copyPrefix_len ht]; exact hxy

theorem mulBigL_sim {p p' : Poly} (h : Like p p') (b : Nat) : Sim Like (p.mulBigL .release b) (p'.mulBigL .release b) := by
  unfold mulBigL
  rw [h.1]
  refine (Sim.same _).bind fun x y hxy => ?_
  subst hxy
  exact (changeRepresentationL_sim (Like.refl x) _).bind fun _ _ hx => (Sim.rassert (by rw [h.2.1])).bind fun _ _ _ => mulL_sim h hx

theorem substStepL_sim (d e : Nat) (q : Modulus) (src src' : List Nat) {st st' : List Nat × Nat} (h : SameLen st.1 st'.1 ∧ st.2 = st'.2) (j : Nat) :
    Sim (fun x y => SameLen x.1 y.1 ∧ x.2 = y.2) (substStepL .release d e q src st j) (substStepL .release d e q src' st' j) := by
  obtain ⟨h1, h2⟩ := h
  unfold substStepL
  rw [h2]
  refine (Sim.idx _ _ _).bind fun _ _ _ => (Sim.idx _ _ _).bind fun _ _ _ => Sim.bind (R := fun _ _ => True) ?_ fun _ _ _ =>
    (Sim.same _).bind fun x y hxy => Sim.pure ⟨?_, hxy⟩
  · refine (Sim.test _).bind fun b b' hb => ?_
    obtain ⟨rfl, rfl⟩ := hb
    exact Sim.ite (fun _ => Sim.silent (subL_silent _ _ _) (subL_silent _ _ _)) fun _ => Sim.silent (addL_silent _ _ _) (addL_silent _ _ _)
  · simpa [SameLen] using h1

theorem substRowPowerL_sim (d e : Nat) (q : Modulus) {z z' src src' : List Nat} (h : SameLen z z') :
    Sim SameLen (substRowPowerL .release d e z src q) (substRowPowerL .release d e z' src' q) := by
  refine (Sim.fold (R := fun (x y : List Nat × Nat) => SameLen x.1 y.1 ∧ x.2 = y.2) (fun _ _ j _ h => substStepL_sim d e q src src' h j) ?_).bind
    fun _ _ h => Sim.pure h.1
  exact ⟨h, rfl⟩

theorem substRowNttL_sim (a b : List Nat) {z z' src src' : List Nat} (h : SameLen z z') :
    Sim SameLen (substRowNttL a b z src) (substRowNttL a b z' src') := by
  refine Sim.fold (fun s t jk _ hst => ?_) h
  refine (Sim.idx _ _ _).bind fun v v' _ => ?_
  intro x y hx hy
  refine ⟨rfl, ?_⟩
  simp only at hx hy
  split at hx <;> split at hy <;> simp_all [SameLen]
  rw [← hx, ← hy]; simpa using hst

theorem substituteL_sim {p p' : Poly} (h : Like p p') (a : Substitution) : Sim Like (p.substituteL .release a) (p'.substituteL .release a) := by
  obtain ⟨c, r, x⟩ := p
  obtain ⟨c', r', x'⟩ := p'
  obtain ⟨h1, h2, h3⟩ := h
  simp only at h1 h2 h3
  subst h1 h2
  have h0 : List.Forall₂ SameLen (zero c r).coefficients (zero c r).coefficients := List.forall₂_same.mpr fun _ _ => rfl
  cases r
  · exact (Sim.zip3Mut h0 h3 fun _ _ _ _ q hz _ => substRowPowerL_sim _ _ q hz).bind fun _ _ h => Sim.pure ⟨rfl, rfl, h⟩
  · exact (Sim.zipMut h0 h3 fun _ _ _ _ hz _ => substRowNttL_sim _ _ hz).bind fun _ _ h => Sim.pure ⟨rfl, rfl, h⟩
  · exact (Sim.zipMut h0 h3 fun _ _ _ _ hz _ => substRowNttL_sim _ _ hz).bind fun _ _ h => Sim.pure ⟨rfl, rfl, h⟩

end Poly

theorem Plaintext.toPolyL_sim {p p' : Plaintext} (hP : p.params = p'.params) (hl : p.level = p'.level) (h : SameLen p.values p'.values) :
    Sim Poly.Like (p.toPolyL .release) (p'.toPolyL .release) := by
  unfold toPolyL
  rw [hP, hl]
  refine (Sim.same _).bind fun a _ ha => (Sim.same _).bind fun b _ hb => (Sim.same _).bind fun c _ hc => (Sim.same _).bind fun d _ hd => ?_
  subst ha hb hc hd
  exact (Modulus.scalarMulVecL_sim _ h _).bind fun _ _ h => (Poly.tryFromVecU64L_sim _ h).bind fun _ _ h =>
    (Poly.changeRepresentationL_sim h _).bind fun _ _ h => Poly.mulL_sim h (Poly.Like.refl _)

theorem SecretKey.encryptL_sim {sk sk' : SecretKey} (hP : sk.params = sk'.params) (h : SameLen sk.coeffs sk'.coeffs) {p p' : Plaintext}
    (hp : p.params = p'.params) (hl : p.level = p'.level) (hv : SameLen p.values p'.values) (aTape aTape' : Nat → Nat → Nat) (rng rng' : Nat → Nat) :
    Sim (fun a b => List.Forall₂ Poly.Like a.cts b.cts) (sk.encryptL .release p aTape rng) (sk'.encryptL .release p' aTape' rng') :=
  (Plaintext.toPolyL_sim hp hl hv).bind fun _ _ hx => encryptPolyL_sim hP h hx _ _ _ _

namespace Ksk
open Poly

theorem newC0L_sim (P : BfvParameters) (c : RqContext) {s s' src src' c1 c1' : Poly} (hs : Like s s') (hsrc : Like src src') (hc : Like c1 c1') (g : Nat)
    (rng rng' : Nat → Nat) : Sim Like (newC0L .release P c s src c1 g rng) (newC0L .release P c s' src' c1' g rng') :=
  (mulL_sim hc hs).bind fun _ _ ha => (randomSmallL_sim _ _ _ _ _).bind fun _ _ hb => (subL_sim hb ha).bind fun _ _ hb =>
    (mulBigL_sim hsrc g).bind fun _ _ hm => addL_sim hb hm

theorem zip_map_forall₂ (n : Nat) (f f' : Nat → Poly) (hf : ∀ k, Like (f k) (f' k)) (g : List Nat) :
    List.Forall₂ (fun (x y : Nat × Poly × Nat) => x.1 = y.1 ∧ Like x.2.1 y.2.1 ∧ x.2.2 = y.2.2)
      ((List.range n).zip (((List.range n).map f).zip g)) ((List.range n).zip (((List.range n).map f').zip g)) := by
  generalize List.range n = l
  induction l generalizing g with
  | nil => exact .nil
  | cons k l ih =>
    cases g with
    | nil => exact .nil
    | cons x g => exact .cons ⟨rfl, hf k, rfl⟩ (ih g)

theorem newL_sim {sk sk' : SecretKey} (hP : sk.params = sk'.params) (h : SameLen sk.coeffs sk'.coeffs) {src src' : Poly} (hs : Like src src') (l k : Nat)
    (a a' : Nat → Nat → Nat → Nat) (rng rng' : Nat → Nat → Nat) :
    Sim (fun _ _ => True) (newL .release sk src l k a rng) (newL .release sk' src' l k a' rng') := by
  unfold newL
  rw [hP]
  refine (Sim.same _).bind fun x _ hx => (Sim.same _).bind fun y _ hy => ?_
  subst hx hy
  refine (SecretKey.polyNttL_sim h _).bind fun s s' hss => ?_
  refine (Sim.map (R := Like) (zip_map_forall₂ _ _ _ (fun _ => SecretKey.random_like _ _ _ _) _) ?_).bind fun _ _ _ => Sim.pure trivial
  rintro ⟨i, c, g⟩ ⟨i', c', g'⟩ ⟨h1, h2, h3⟩
  simp only at h1 h2 h3
  subst h1 h3
  exact newC0L_sim _ _ hss hs h2 _ _ _

theorem newWithPtL_sim {sk sk' : SecretKey} (hP : sk.params = sk'.params) (h : SameLen sk.coeffs sk'.coeffs) {p p' : Plaintext}
    (hp : p.params = p'.params) (hl : p.level = p'.level) (hv : SameLen p.values p'.values) (l k : Nat) (a a' : Nat → Nat → Nat → Nat)
    (rng rng' : Nat → Nat → Nat) : Sim (fun _ _ => True) (newWithPtL .release sk p l k a rng) (newWithPtL .release sk' p' l k a' rng') :=
  (Plaintext.toPolyL_sim hp hl hv).bind fun _ _ hx => newL_sim hP h hx _ _ _ _ _ _

end Ksk

theorem GaliosKey.newL_sim {sk sk' : SecretKey} (hP : sk.params = sk'.params) (h : SameLen sk.coeffs sk'.coeffs) (i : Substitution) (l : Nat)
    (a a' : Nat → Nat → Nat → Nat) (rng rng' : Nat → Nat → Nat) :
    Sim (fun _ _ => True) (newL .release sk i l a rng) (newL .release sk' i l a' rng') := by
  unfold newL
  rw [hP]
  refine (Sim.rassert Iff.rfl).bind fun _ _ _ => (Sim.same _).bind fun x _ hx => ?_
  subst hx
  exact (Poly.tryFromVecI64L_sim _ h).bind fun _ _ hs => (Poly.substituteL_sim hs i).bind fun _ _ hs =>
    (Poly.changeRepresentationL_sim hs _).bind fun _ _ hs => (Ksk.newL_sim hP h hs _ _ _ _ _ _).bind fun _ _ _ => Sim.pure trivial

theorem RelinearizationKey.newL_sim {sk sk' : SecretKey} (hP : sk.params = sk'.params) (h : SameLen sk.coeffs sk'.coeffs) (l : Nat)
    (a a' : Nat → Nat → Nat → Nat) (rng rng' : Nat → Nat → Nat) :
    Sim (fun _ _ => True) (newL .release sk l a rng) (newL .release sk' l a' rng') := by
  unfold newL
  rw [hP]
  refine (Sim.same _).bind fun x _ hx => ?_
  subst hx
  exact (SecretKey.polyNttL_sim h _).bind fun _ _ hs => (Poly.mulL_sim hs hs).bind fun _ _ hs =>
    (Ksk.newL_sim hP h hs _ _ _ _ _ _).bind fun _ _ _ => Sim.pure trivial

namespace RgswCt
open Poly

theorem encryptPolyL_sim {sk sk' : SecretKey} (hP : sk.params = sk'.params) (h : SameLen sk.coeffs sk'.coeffs) {m m' : Poly} (hm : Like m m')
    (a0 a1 b0 b1 : Nat → Nat → Nat → Nat) (r0 r1 t0 t1 : Nat → Nat → Nat) :
    Sim (fun _ _ => True) (encryptPolyL .release sk m a0 a1 r0 r1) (encryptPolyL .release sk' m' b0 b1 t0 t1) := by
  unfold encryptPolyL
  rw [hP, hm.1, hm.2.1]
  refine (Sim.rassert Iff.rfl).bind fun _ _ _ => (Sim.same _).bind fun x _ hx => ?_
  subst hx
  exact (SecretKey.polyNttL_sim h _).bind fun _ _ hs => (mulL_sim hs hm).bind fun _ _ hs => (Ksk.newL_sim hP h hs _ _ _ _ _ _).bind fun _ _ _ =>
    (Ksk.newL_sim hP h hm _ _ _ _ _ _).bind fun _ _ _ => Sim.pure trivial

theorem encryptL_sim {sk sk' : SecretKey} (hP : sk.params = sk'.params) (h : SameLen sk.coeffs sk'.coeffs) {m m' : Plaintext}
    (hp : m.params = m'.params) (hl : m.level = m'.level) (hv : SameLen m.values m'.values)
    (a0 a1 b0 b1 : Nat → Nat → Nat → Nat) (r0 r1 t0 t1 : Nat → Nat → Nat) :
    Sim (fun _ _ => True) (encryptL .release sk m a0 a1 r0 r1) (encryptL .release sk' m' b0 b1 t0 t1) := by
  unfold encryptL
  rw [hP, hp, hl]
  refine (Sim.rassert Iff.rfl).bind fun _ _ _ => (Sim.same _).bind fun x _ hx => ?_
  subst hx
  exact (tryFromVecU64L_sim _ hv).bind fun _ _ hm => (changeRepresentationL_sim hm _).bind fun _ _ hm => (SecretKey.polyNttL_sim h _).bind fun _ _ hs =>
    (mulL_sim hs hm).bind fun _ _ hs => (Ksk.newL_sim hP h hs _ _ _ _ _ _).bind fun _ _ _ =>
    (Ksk.newL_sim hP h hm _ _ _ _ _ _).bind fun _ _ _ => Sim.pure trivial

end RgswCt

namespace Evaluation

theorem buildL_sim {sk sk' : SecretKey} (hP : sk.params = sk'.params) (h : SameLen sk.coeffs sk'.coeffs) (P : BfvParameters)
    (a a' : Nat → Nat → Nat → Nat → Nat) (rng rng' : Nat → Nat → Nat → Nat) (a0 a1 b0 b1 : Nat → Nat → Nat → Nat) (r0 r1 t0 t1 : Nat → Nat → Nat) :
    Sim (fun _ _ => True) (buildL .release sk P a rng a0 a1 r0 r1) (buildL .release sk' P a' rng' b0 b1 t0 t1) := by
  refine (Sim.same _).bind fun lg _ hlg => ?_
  subst hlg
  refine Sim.bind (R := fun _ _ => True) (Sim.fold (fun m m' i _ _ => ?_) trivial) fun _ _ _ => ?_
  · refine (Sim.same _).bind fun p _ hp => ?_
    subst hp
    refine (Sim.same _).bind fun d _ hd => ?_
    subst hd
    refine (Sim.same _).bind fun k _ hk => ?_
    subst hk
    refine (Sim.same _).bind fun c _ hc => ?_
    subst hc
    refine (Sim.same _).bind fun s _ hs => ?_
    subst hs
    exact (GaliosKey.newL_sim hP h _ _ _ _ _ _).bind fun _ _ _ => Sim.pure trivial
  · refine (Sim.same _).bind fun c _ hc => ?_
    subst hc
    exact (SecretKey.polyNttL_sim h _).bind fun _ _ hs => (RgswCt.encryptPolyL_sim hP h hs _ _ _ _ _ _ _ _).bind fun _ _ _ => Sim.pure trivial

end Evaluation

namespace Client

theorem selectorL_sim (d : Nat) {q q' : Nat} (h : q < d) (h' : q' < d) : Sim SameLen (selectorL d q) (selectorL d q') :=
  (Sim.rassert (by simp [h, h'])).bind fun _ _ _ =>
    (Sim.map (R := fun _ _ => True) (forall₂_eq _) fun _ _ _ => Sim.pure trivial).mono fun _ _ h => h.length_eq

theorem encodeL_sim (c : Client) {q q' : List Nat} (hl : SameLen q q') (h : ∀ x, x ∈ q.head? → x < c.firstDim) (h' : ∀ x, x ∈ q'.head? → x < c.firstDim)
    (ht : ∀ x ∈ q.drop 1, x < c.dim) (ht' : ∀ x ∈ q'.drop 1, x < c.dim) (n : Nat) :
    Sim SameLen (encodeL .release c q n) (encodeL .release c q' n) := by
  unfold encodeL
  rw [show q.length = q'.length from hl]
  refine (Sim.idx _ _ _).bind fun x y hxy => ?_
  obtain ⟨hx, hy⟩ := hxy
  rw [← List.head?_eq_getElem?] at hx hy
  refine (Sim.rassert (by simp [h x hx, h' y hy])).bind fun _ _ _ => ?_
  refine (Sim.map (R := fun _ _ => True) (forall₂_eq _) fun _ _ _ => Sim.pure trivial).bind fun f f' hf => ?_
  refine (Sim.same _).bind fun d _ hd => ?_
  subst hd
  refine (Sim.same _).bind fun p _ hp => ?_
  subst hp
  refine (Sim.same _).bind fun e _ he => ?_
  subst he
  refine (Sim.rassert Iff.rfl).bind fun _ _ _ => ?_
  refine (Sim.map (R := SameLen) (P := fun x y => x < c.dim ∧ y < c.dim) ?_ fun a b hab => selectorL_sim _ hab.1 hab.2).bind fun r s hrs => Sim.pure ?_
  · have hl' : SameLen (q.drop 1) (q'.drop 1) := by simp only [SameLen, List.length_drop] at hl ⊢; rw [hl]
    revert hl' ht ht'
    generalize q.drop 1 = u
    generalize q'.drop 1 = v
    intro hu hv huv
    induction u generalizing v with
    | nil => cases v <;> simp_all [SameLen]
    | cons a u ih =>
      cases v with
      | nil => simp [SameLen] at huv
      | cons b v =>
        exact .cons ⟨hu a (by simp), hv b (by simp)⟩ (ih v (fun x hx => hu x (by simp [hx])) (fun x hx => hv x (by simp [hx])) (by simpa [SameLen] using huv))
  · have : SameLen r.flatten s.flatten := by
      induction hrs with
      | nil => rfl
      | cons hab _ ih => simp only [SameLen, List.flatten_cons, List.length_append] at *; rw [hab, ih]
    simp only [SameLen, List.length_append] at *
    rw [this, hf.length_eq]

end Client

namespace Pvw
open Modulus

theorem dotL_sim (q : Modulus) (n : Nat) (sk sk' : PvwSk) (l : Nat) (a a' : List Nat) :
    Sim (fun _ _ => True) (dotL .release q n sk l a) (dotL .release q n sk' l a') := by
  refine Sim.fold (fun _ _ _ _ _ => ?_) trivial
  exact (Sim.idx _ _ _).bind fun _ _ _ => (Sim.idx _ _ _).bind fun _ _ _ => (Sim.idx _ _ _).bind fun _ _ _ =>
    (Sim.silent (mulL_silent q _ _) (mulL_silent q _ _)).bind fun _ _ _ => Sim.silent (addL_silent q _ _) (addL_silent q _ _)

theorem genPkL_sim (sk sk' : PvwSk) (P : PvwParams) (a a' rng rng' : Nat → Nat → Nat) :
    Sim (fun _ _ => True) (genPkL .release sk P a rng) (genPkL .release sk' P a' rng') := by
  refine (Sim.same _).bind fun q _ hq => ?_
  subst hq
  refine Sim.bind (R := List.Forall₂ SameLen) (Sim.map (forall₂_eq _) fun l l' hl => ?_) fun cols cols' hc => ?_
  · subst hl
    refine (sampleVecCbdL_sim _ _ _ _).bind fun r r' hr => (map_sim (fun _ => reduceI64L_silent q _) hr).bind fun e e' _ => ?_
    refine (Sim.map (R := fun _ _ => True) (forall₂_eq _) fun m m' hm => ?_).mono fun _ _ h => h.length_eq
    subst hm
    exact (Sim.idx _ _ _).bind fun _ _ _ => (dotL_sim _ _ _ _ _ _ _).bind fun _ _ _ => (Sim.idx _ _ _).bind fun _ _ _ =>
      Sim.silent (addL_silent q _ _) (addL_silent q _ _)
  · refine (Sim.map (R := fun _ _ => True) (forall₂_eq _) fun m m' hm => ?_).mono fun _ _ _ => trivial
    subst hm
    refine (Sim.map (R := fun _ _ => True) hc fun c c' _ => ?_).bind fun _ _ _ => (Sim.idx _ _ _).bind fun _ _ _ => Sim.pure trivial
    exact (Sim.idx c c' m).mono fun _ _ _ => trivial

theorem setL_sim {b b' : List Nat} (h : SameLen b b') (l v v' : Nat) : Sim SameLen (setL b l v) (setL b' l v') := by
  intro x y hx hy
  refine ⟨rfl, ?_⟩
  unfold setL at hx hy
  simp only at hx hy
  split at hx <;> split at hy <;> simp_all [SameLen]
  rw [← hx, ← hy]; simpa using h

theorem encryptL_sim (pk pk' : PvwPk) (P : PvwParams) {msg msg' : List Nat} (h : SameLen msg msg') (e e' : Nat → Nat) :
    Sim (fun _ _ => True) (encryptL .release pk P msg e) (encryptL .release pk' P msg' e') := by
  refine (Sim.same _).bind fun q _ hq => ?_
  subst hq
  have acc : ∀ (comp : PvwCiphertext → List Nat) (m : Nat) (l : List Nat) (s t : List Nat), SameLen s t →
      Sim SameLen (Lk.fold (accStepL .release q pk comp m (e m)) s l) (Lk.fold (accStepL .release q pk' comp m (e' m)) t l) := by
    intro comp m l s t hst
    refine Sim.fold (fun s t i _ hst => ?_) hst
    exact (Sim.idx _ _ _).bind fun _ _ _ => (Sim.idx _ _ _).bind fun _ _ _ => (Sim.silent (mulL_silent q _ _) (mulL_silent q _ _)).bind fun _ _ _ =>
      (Sim.idx _ _ _).bind fun _ _ _ => (Sim.silent (addL_silent q _ _) (addL_silent q _ _)).bind fun _ _ _ => setL_sim hst _ _ _
  refine (Sim.fold (R := fun (x y : List Nat × List Nat) => SameLen x.1 y.1 ∧ SameLen x.2 y.2) (fun s t m _ hst => ?_) ⟨rfl, rfl⟩).bind fun s t hst => ?_
  · exact (acc _ _ _ _ _ hst.1).bind fun _ _ h1 => (acc _ _ _ _ _ hst.2).bind fun _ _ h2 => Sim.pure ⟨h1, h2⟩
  · refine (Sim.zipMut (R := fun _ _ => True) (P := fun _ _ => True) (forall₂_true hst.1) (forall₂_true h) fun _ _ _ _ _ _ => ?_).bind
      fun _ _ _ => Sim.pure trivial
    exact (Sim.silent rfl rfl).bind fun _ _ _ => Sim.silent (addL_silent q _ _) (addL_silent q _ _)

/-- The first part of `decrypt`. -/
theorem phasesL_sim (P : PvwParams) (q : Modulus) (sk sk' : PvwSk) (a a' : List Nat) {b b' : List Nat} (h : SameLen b b') (l : List Nat) :
    Sim SameLen (Lk.fold (decryptStepL .release P q sk a) b l) (Lk.fold (decryptStepL .release P q sk' a') b' l) := by
  refine Sim.fold (fun _ _ _ _ hst => ?_) h
  exact (dotL_sim _ _ _ _ _ _ _).bind fun _ _ _ => (Sim.idx _ _ _).bind fun _ _ _ =>
    (Sim.silent (subL_silent q _ _) (subL_silent q _ _)).bind fun _ _ _ => setL_sim hst _ _ _

/-- The trace of the rounding loop. -/
theorem roundsL_trace {t : Nat} (h2 : 2 ≤ t) (h62 : t < 2 ^ 62) {b : List Nat} (hb : ∀ v ∈ b, v < t) :
    (Lk.map (roundL .release t) b).trace = b.flatMap (fun v => [.branch true, .division (v + t / 4) (t / 2)]) ++ [.branch false] := by
  induction b with
  | nil => rfl
  | cons v b ih =>
    have hv : v < t := hb v (by simp)
    have e1 : (roundL .release t v).val = .ok ((v + t / 4) / (t / 2) % 2) := by
      rw [roundL_val]; unfold round
      rw [addW_ok (by omega), res_ok_bind, divR_ok (by omega)]; rfl
    have e2 : (roundL .release t v).trace = [.division (v + t / 4) (t / 2)] := by
      unfold roundL
      rw [bind_trace_ok (show (Lk.add 64 .release v (t / 4)).val = .ok (v + t / 4) from by rw [add_val]; exact addW_ok (by omega)),
        bind_pure_trace]
      rfl
    have e3 : (Lk.map (roundL .release t) b).trace = _ := ih fun x hx => hb x (by simp [hx])
    show (Lk.test true >>= fun _ => roundL .release t v >>= fun x => Lk.map (roundL .release t) b >>= fun r => pure (x :: r)).trace = _
    rw [bind_trace_ok (show (Lk.test true).val = .ok true from rfl), bind_trace_ok e1, bind_pure_trace, e2, e3]
    rfl

end Pvw
end OnionPIR
