import Verif.Model.Leak
/-
The model with traces (Model/Leak) computes the values of the first model, and rules to compare the traces of two runs.
-/
namespace OnionPIR

namespace Lk

theorem bind_val {α β : Type} (x : Lk α) (f : α → Lk β) : (x >>= f).val = x.val >>= fun a => (f a).val := by
  show (match x.val with
    | .ok a => (⟨(f a).val, x.trace ++ (f a).trace⟩ : Lk β)
    | .error e => ⟨.error e, x.trace⟩).val = _
  cases x.val <;> rfl

theorem bind_trace_ok {α β : Type} {x : Lk α} {a : α} (h : x.val = .ok a) (f : α → Lk β) : (x >>= f).trace = x.trace ++ (f a).trace := by
  show (match x.val with
    | .ok a => (⟨(f a).val, x.trace ++ (f a).trace⟩ : Lk β)
    | .error e => ⟨.error e, x.trace⟩).trace = _
  rw [h]

theorem pure_val {α : Type} (a : α) : (pure a : Lk α).val = .ok a := rfl
theorem lift_val {α : Type} (x : Res α) : (lift x).val = x := rfl
theorem test_val (b : Bool) : (test b).val = .ok b := rfl
theorem add_val (w : Nat) (pr : Profile) (a b : Nat) : (add w pr a b).val = addW w pr a b := rfl
theorem mul_val (w : Nat) (pr : Profile) (a b : Nat) : (mul w pr a b).val = mulW w pr a b := rfl
theorem sub_val (w : Nat) (pr : Profile) (a b : Nat) : (sub w pr a b).val = subW w pr a b := rfl
theorem div_val (a b : Nat) : (div a b).val = divR a b := rfl
theorem rassert_val (c : Prop) [Decidable c] : (rassert c).val = OnionPIR.rassert c := rfl
theorem dassert_val (pr : Profile) (c : Prop) [Decidable c] : (dassert pr c).val = OnionPIR.dassert pr c := rfl
theorem idx_val {α : Type} (l : List α) (i : Nat) : (idx l i).val = OnionPIR.idx l i := rfl
theorem ite_val {α : Type} (b : Bool) (x y : Lk α) : (if b then x else y).val = if b then x.val else y.val := by cases b <;> rfl

theorem dassertEqR_val (pr : Profile) (x : Nat) (y : Lk Nat) : (dassertEqR pr x y).val = OnionPIR.dassertEqR pr x y.val := by
  cases pr
  · simp only [dassertEqR, OnionPIR.dassertEqR, bind_val, dassert_val]
  · rfl

theorem map_val {α β : Type} (f : α → Lk β) (l : List α) : (map f l).val = mapR (fun a => (f a).val) l := by
  induction l with
  | nil => rfl
  | cons a as ih => simp only [map, mapR, bind_val, test_val, res_ok_bind, ih, pure_val]

theorem fold_val {α σ : Type} (f : σ → α → Lk σ) (s : σ) (l : List α) : (fold f s l).val = foldR (fun s a => (f s a).val) s l := by
  induction l generalizing s with
  | nil => rfl
  | cons a as ih => simp only [fold, foldR, bind_val, test_val, res_ok_bind, ih]

theorem zipMut_val {α β : Type} (f : α → β → Lk α) (l : List α) (l' : List β) : (zipMut f l l').val = zipMutM (fun a b => (f a b).val) l l' := by
  induction l generalizing l' with
  | nil => rfl
  | cons a as ih =>
    cases l' with
    | nil => rfl
    | cons b bs => simp only [zipMut, zipMutM, bind_val, test_val, res_ok_bind, ih, pure_val]

theorem zip3Mut_val {α β γ : Type} (f : α → β → γ → Lk α) (l : List α) (l' : List β) (l'' : List γ) :
    (zip3Mut f l l' l'').val = zip3MutM (fun a b c => (f a b c).val) l l' l'' := by
  induction l generalizing l' l'' with
  | nil => rfl
  | cons a as ih =>
    cases l' with
    | nil => rfl
    | cons b bs =>
      cases l'' with
      | nil => rfl
      | cons c cs => simp only [zip3Mut, zip3MutM, bind_val, test_val, res_ok_bind, ih, pure_val]

end Lk

open Lk

namespace Modulus
variable (pr : Profile) (m : Modulus)

theorem lazyReduceCtL_val (a : Nat) : (m.lazyReduceCtL pr a).val = m.lazyReduceCt pr a := by
  simp only [lazyReduceCtL, lazyReduceCt, bind_val, mul_val, add_val, sub_val, pure_val]

theorem lazyReduceU128L_val (a : Nat) : (m.lazyReduceU128L pr a).val = m.lazyReduceU128 pr a := by
  simp only [lazyReduceU128L, lazyReduceU128, bind_val, mul_val, add_val, sub_val, pure_val]

theorem reduceCtCheckL_val (r x p : Nat) : (reduceCtCheckL pr r x p).val = dassert pr (r = x % p) := by cases pr <;> rfl

theorem reduceCtL_val (x p : Nat) : (reduceCtL pr x p).val = reduceCt pr x p := by
  simp only [reduceCtL, reduceCtEndL, ctSelect, reduceCt, bind_val, dassert_val, reduceCtCheckL_val, pure_val]

theorem reduceL_val (a : Nat) : (m.reduceL pr a).val = m.reduce pr a := by
  simp only [reduceL, reduce, bind_val, lazyReduceCtL_val, reduceCtL_val]

theorem reduceU128L_val (a : Nat) : (m.reduceU128L pr a).val = m.reduceU128 pr a := by
  simp only [reduceU128L, reduceU128, bind_val, lazyReduceU128L_val, reduceCtL_val]

theorem reduceI64L_val (a : Int) : (m.reduceI64L pr a).val = m.reduceI64 pr a := reduceU128L_val pr m _

theorem reduceVecU64L_val (a : List Nat) : (m.reduceVecU64L pr a).val = m.reduceVecU64 pr a := by
  simp only [reduceVecU64L, reduceVecU64, map_val, reduceL_val]

theorem reduceVecI64L_val (a : List Int) : (m.reduceVecI64L pr a).val = m.reduceVecI64 pr a := by
  simp only [reduceVecI64L, reduceVecI64, map_val, reduceI64L_val]

theorem mulL_val (a b : Nat) : (m.mulL pr a b).val = m.mul pr a b := by
  simp only [mulL, mul, bind_val, dassert_val, mul_val, reduceU128L_val]

theorem powLoopL_val (a r n v : Nat) : (m.powLoopL pr a r n v).val = m.powLoop pr a r n v := by
  induction n generalizing v with
  | zero => rfl
  | succ n ih => simp only [powLoopL, powLoop, bind_val, test_val, res_ok_bind, mulL_val, ite_val, pure_val, ih, decide_eq_true_eq]

theorem powL_val (a r : Nat) : (m.powL pr a r).val = m.pow pr a r := by
  simp only [powL, pow, bind_val, test_val, res_ok_bind, dassert_val, ite_val, pure_val, sub_val, powLoopL_val, decide_eq_true_eq]

theorem invL_val (a : Nat) : (m.invL pr a).val = m.inv pr a := by
  simp only [invL, inv, bind_val, dassert_val, sub_val, powL_val]

theorem addL_val (a b : Nat) : (m.addL pr a b).val = m.add pr a b := by
  simp only [addL, add, bind_val, dassert_val, add_val, reduceCtL_val]

theorem subL_val (a b : Nat) : (m.subL pr a b).val = m.sub pr a b := by
  simp only [subL, sub, bind_val, dassert_val, add_val, sub_val, reduceCtL_val]

theorem negL_val (a : Nat) : (m.negL pr a).val = m.neg pr a := by
  simp only [negL, neg, bind_val, dassert_val, sub_val, reduceCtL_val]

theorem addVecL_val (a b : List Nat) : (m.addVecL pr a b).val = m.addVec pr a b := by
  simp only [addVecL, addVec, zipMut_val, addL_val]

theorem subVecL_val (a b : List Nat) : (m.subVecL pr a b).val = m.subVec pr a b := by
  simp only [subVecL, subVec, zipMut_val, subL_val]

theorem mulVecL_val (a b : List Nat) : (m.mulVecL pr a b).val = m.mulVec pr a b := by
  simp only [mulVecL, mulVec, zipMut_val, mulL_val]

theorem negVecL_val (a : List Nat) : (m.negVecL pr a).val = m.negVec pr a := by
  simp only [negVecL, negVec, map_val, negL_val]

theorem shoupL_val (a : Nat) : (m.shoupL pr a).val = m.shoup pr a := by
  simp only [shoupL, shoup, bind_val, dassert_val, div_val, pure_val]

theorem lazyMulShoupL_val (a b bs : Nat) : (m.lazyMulShoupL pr a b bs).val = m.lazyMulShoup pr a b bs := by
  simp only [lazyMulShoupL, lazyMulShoup, bind_val, dassert_val, dassertEqR_val, shoupL_val, mul_val, sub_val, pure_val]

theorem mulShoupL_val (a b bs : Nat) : (m.mulShoupL pr a b bs).val = m.mulShoup pr a b bs := by
  simp only [mulShoupL, mulShoup, bind_val, lazyMulShoupL_val, reduceCtL_val]

end Modulus

namespace NttOperator
open Modulus
variable (pr : Profile) (op : NttOperator)

theorem butterflyL_val (x y w ws : Nat) : (op.butterflyL pr x y w ws).val = op.butterfly pr x y w ws := by
  simp only [butterflyL, butterfly, bind_val, dassert_val, dassertEqR_val, shoupL_val, reduceCtL_val, lazyMulShoupL_val, add_val, sub_val, pure_val]

theorem butterflyInvL_val (x y w ws : Nat) : (op.butterflyInvL pr x y w ws).val = op.butterflyInv pr x y w ws := by
  simp only [butterflyInvL, butterflyInv, bind_val, dassert_val, dassertEqR_val, shoupL_val, reduceCtL_val, lazyMulShoupL_val, add_val, sub_val,
    pure_val]

theorem reduce4pL_val (a : Nat) (p : Modulus) : (reduce4pL pr a p).val = reduce4p pr a p := by
  simp only [reduce4pL, reduce4p, bind_val, dassert_val, mul_val, reduceCtL_val]

theorem updatePairL_val (a : List Nat) (j l : Nat) (f : Nat → Nat → Lk (Nat × Nat)) :
    (updatePairL a j l f).val = updatePair a j l (fun x y => (f x y).val) := by
  simp only [updatePairL, updatePair, bind_val, idx_val, pure_val]

theorem forwardBlockL_val (l i w ws : Nat) (a : List Nat) : (op.forwardBlockL pr l i w ws a).val = op.forwardBlock pr l i w ws a := by
  simp only [forwardBlockL, forwardBlock, bind_val, test_val, res_ok_bind, ite_val, updatePairL_val, fold_val, butterflyL_val, reduce4pL_val, pure_val,
    decide_eq_true_eq]

theorem forwardLayerL_val (l m k : Nat) (a : List Nat) : (op.forwardLayerL pr l m k a).val = op.forwardLayer pr l m k a := by
  simp only [forwardLayerL, forwardLayer, bind_val, fold_val, idx_val, forwardBlockL_val, pure_val]

theorem forwardLoopL_val (l m k : Nat) (a : List Nat) : (op.forwardLoopL pr l m k a).val = op.forwardLoop pr l m k a := by
  induction l using Nat.strong_induction_on generalizing m k a with
  | _ l ih =>
    rw [forwardLoopL, forwardLoop]
    split
    · rfl
    · rename_i h
      simp only [bind_val, test_val, res_ok_bind, forwardLayerL_val]
      congr 1
      funext st
      exact ih _ (by rw [Nat.shiftRight_eq_div_pow]; omega) _ _ _

theorem forwardL_val (a : List Nat) : (op.forwardL pr a).val = op.forward pr a := by
  simp only [forwardL, forward, bind_val, rassert_val, forwardLoopL_val]

theorem backwardLayerL_val (l m k : Nat) (a : List Nat) : (op.backwardLayerL pr l m k a).val = op.backwardLayer pr l m k a := by
  simp only [backwardLayerL, backwardLayer, bind_val, fold_val, idx_val, updatePairL_val, butterflyInvL_val, pure_val]

theorem backwardLoopL_val (l m k : Nat) (a : List Nat) : (op.backwardLoopL pr l m k a).val = op.backwardLoop pr l m k a := by
  induction m using Nat.strong_induction_on generalizing l k a with
  | _ m ih =>
    rw [backwardLoopL, backwardLoop]
    split
    · rfl
    · rename_i h
      simp only [bind_val, test_val, res_ok_bind, backwardLayerL_val]
      congr 1
      funext st
      exact ih _ (by rw [Nat.shiftRight_eq_div_pow]; omega) _ _ _

theorem backwardL_val (a : List Nat) : (op.backwardL pr a).val = op.backward pr a := by
  simp only [backwardL, backward, bind_val, rassert_val, backwardLoopL_val, map_val, mulShoupL_val]

end NttOperator

theorem cbdStepL_val (pr : Profile) (rng : Nat → Nat) (v : Nat) (s : CbdState) : (cbdStepL pr rng v s).val = cbdStep pr rng v s := by
  simp only [cbdStepL, cbdStep, bind_val, test_val, res_ok_bind, dassert_val, sub_val, pure_val, decide_eq_true_eq]

theorem sampleVecCbdL_val (pr : Profile) (rng : Nat → Nat) (n v : Nat) : (sampleVecCbdL pr rng n v).val = sampleVecCbd pr rng n v := by
  simp only [sampleVecCbdL, sampleVecCbd, bind_val, rassert_val, fold_val, cbdStepL_val, pure_val]

namespace Poly
open Modulus NttOperator
variable (pr : Profile)

theorem changeRepresentationL_val (p : Poly) (tgt : Representation) : (p.changeRepresentationL pr tgt).val = p.changeRepresentation pr tgt := by
  obtain ⟨c, r, co⟩ := p
  cases r <;> cases tgt <;>
    simp only [changeRepresentationL, changeRepresentation, bind_val, zipMut_val, forwardL_val, backwardL_val, pure_val, lift_val]

theorem tryFromVecI64L_val (ctx : RqContext) (a : List Int) : (tryFromVecI64L pr ctx a).val = tryFromVecI64 pr ctx a := by
  simp only [tryFromVecI64L, tryFromVecI64, fromRows, bind_val, zipMut_val, reduceVecI64L_val, lift_val, pure_val]

theorem randomSmallL_val (ctx : RqContext) (rep : Representation) (v : Nat) (rng : Nat → Nat) :
    (randomSmallL pr ctx rep v rng).val = randomSmall pr ctx rep v rng := by
  simp only [randomSmallL, randomSmall, bind_val, sampleVecCbdL_val, tryFromVecI64L_val, changeRepresentationL_val]

theorem addL_val (a b : Poly) : (a.addL pr b).val = a.add pr b := by
  simp only [addL, add, bind_val, rassert_val, zip3Mut_val, addVecL_val, pure_val]

theorem subL_val (a b : Poly) : (a.subL pr b).val = a.sub pr b := by
  simp only [subL, sub, bind_val, rassert_val, zip3Mut_val, subVecL_val, pure_val]

theorem mulL_val (a b : Poly) : (a.mulL pr b).val = a.mul pr b := by
  simp only [mulL, mul, bind_val, rassert_val, zip3Mut_val, mulVecL_val, pure_val]

end Poly

namespace RnsScaler
open Modulus
variable (pr : Profile)

theorem mulWordsL_val (r l h : Nat) : (mulWordsL pr r l h).val = mulWords pr r l h := by
  simp only [mulWordsL, mulWords, bind_val, mul_val, add_val, pure_val]

theorem sumThetaGarnerL_val (a b c : List Nat) (acc : Nat) : (sumThetaGarnerL pr a b c acc).val = sumThetaGarner pr a b c acc := by
  induction a generalizing b c acc with
  | nil => rfl
  | cons x a ih =>
    cases b with
    | nil => rfl
    | cons y b =>
      cases c with
      | nil => rfl
      | cons z c => simp only [sumThetaGarnerL, sumThetaGarner, bind_val, test_val, res_ok_bind, mulWordsL_val, ih]

theorem divCeil2L_val (w a : Nat) : (divCeil2L w pr a).val = divCeil w pr a 2 := by
  simp only [divCeil2L, divCeil, bind_val, rassert_val, add_val, sub_val, lift_val]

theorem scaleVL_val (s : RnsScaler) (r : List Nat) : (scaleVL pr s r).val = scaleV pr s r := by
  simp only [scaleVL, scaleV, bind_val, sumThetaGarnerL_val, sub_val, divCeil2L_val]

theorem sumThetaOmegaL_val (a b : List Nat) (c : List Bool) (d : List Nat) (acc : U256) :
    (sumThetaOmegaL pr a b c d acc).val = sumThetaOmega pr a b c d acc := by
  induction a generalizing b c d acc with
  | nil => rfl
  | cons x a ih =>
    cases b with
    | nil => rfl
    | cons y b =>
      cases c with
      | nil => rfl
      | cons z c =>
        cases d with
        | nil => rfl
        | cons u d => simp only [sumThetaOmegaL, sumThetaOmega, bind_val, test_val, res_ok_bind, mulWordsL_val, ih]

theorem vThetaGammaL_val (v l h : Nat) : (vThetaGammaL pr v l h).val = vThetaGamma pr v l h := by
  simp only [vThetaGammaL, vThetaGamma, bind_val, mul_val, add_val, pure_val]

theorem toU128L_val (x : U256) : (toU128L pr x).val = x.toU128 pr := by
  simp only [toU128L, U256.toU128, bind_val, dassert_val, add_val]

theorem shr126L_val (x : U256) : (shr126L pr x).val = x.shr pr 126 := rfl

theorem roundWL_val (s : U256) : (roundWL pr s).val = roundW pr s := by
  simp only [roundWL, roundW, bind_val, test_val, res_ok_bind, ite_val, shr126L_val, toU128L_val, add_val, divCeil2L_val, pure_val, decide_eq_true_eq]

theorem scaleWL_val (s : RnsScaler) (r : List Nat) (v : Nat) : (scaleWL pr s r v).val = scaleW pr s r v := by
  simp only [scaleWL, scaleW, bind_val, test_val, res_ok_bind, ite_val, sumThetaOmegaL_val, vThetaGammaL_val, roundWL_val, pure_val]
  cases s.scalingFactor.isOne <;> rfl

theorem addOmegaL_val (q : Modulus) (a b c : List Nat) (j y : Nat) : (addOmegaL pr q a b c j y).val = addOmega pr q a b c y := by
  induction a generalizing b c j y with
  | nil => cases b <;> cases c <;> rfl
  | cons x a ih =>
    cases b with
    | nil => rfl
    | cons u b =>
      cases c with
      | nil => rfl
      | cons z c => simp only [addOmegaL, addOmega, bind_val, test_val, res_ok_bind, lazyMulShoupL_val, add_val, ih]

theorem signedWL_val (q : Modulus) (b : Bool) (w : Nat) : (signedWL pr q b w).val = signedW pr q b w := by
  simp only [signedWL, signedW, bind_val, test_val, res_ok_bind, ite_val, mul_val, sub_val, pure_val]

theorem addWTermL_val (s : RnsScaler) (q : Modulus) (b : Bool) (w y : Nat) : (addWTermL pr s q b w y).val = addWTerm pr s q b w y := by
  simp only [addWTermL, addWTerm, bind_val, test_val, res_ok_bind, ite_val, lazyReduceU128L_val, signedWL_val, add_val, pure_val]
  cases s.scalingFactor.isOne <;> rfl

theorem scaleOutL_val (s : RnsScaler) (r : List Nat) (v : Nat) (b : Bool) (w j : Nat) : (scaleOutL pr s r v b w j).val = scaleOut pr s r v b w j := by
  simp only [scaleOutL, scaleOut, bind_val, idx_val, reduceU128L_val, lazyMulShoupL_val, mul_val, sub_val, addWTermL_val, addOmegaL_val]

theorem scaleL_val (s : RnsScaler) (r : List Nat) (n i : Nat) : (s.scaleL pr r n i).val = s.scale pr r n i := by
  simp only [scaleL, scale, bind_val, dassert_val, scaleVL_val, scaleWL_val, map_val, scaleOutL_val]

end RnsScaler

namespace RqScaler
variable (pr : Profile)

theorem columnL_val (p : Poly) (j : Nat) : (columnL p j).val = p.column j := rfl

theorem scaleColumnsL_val (s : RqScaler) (p : Poly) : (s.scaleColumnsL pr p).val = s.scaleColumns pr p := by
  simp only [scaleColumnsL, scaleColumns, bind_val, test_val, res_ok_bind, ite_val, map_val, columnL_val, RnsScaler.scaleL_val, pure_val,
    decide_eq_true_eq]

theorem scalePowerL_val (s : RqScaler) (p : Poly) : (s.scalePowerL pr p).val = s.scalePower pr p := by
  simp only [scalePowerL, scalePower, bind_val, scaleColumnsL_val, lift_val, pure_val]

theorem scaleL_val (s : RqScaler) (p : Poly) : (s.scaleL pr p).val = s.scale pr p := by
  simp only [scaleL, scale, bind_val, rassert_val, test_val, res_ok_bind, ite_val, Poly.changeRepresentationL_val, scalePowerL_val,
    decide_eq_true_eq, ite_not]

end RqScaler

namespace SecretKey
open Poly
variable (pr : Profile)

theorem generateL_val (P : BfvParameters) (rng : Nat → Nat) : (generateL pr P rng).val = generate pr P rng := by
  simp only [generateL, generate, bind_val, sampleVecCbdL_val, pure_val]

theorem polyNttL_val (sk : SecretKey) (ctx : RqContext) : (sk.polyNttL pr ctx).val = sk.polyNtt pr ctx := by
  simp only [polyNttL, polyNtt, bind_val, tryFromVecI64L_val, changeRepresentationL_val]

theorem encryptPolyL_val (sk : SecretKey) (pt : Poly) (a : Nat → Nat → Nat) (rng : Nat → Nat) :
    (sk.encryptPolyL pr pt a rng).val = sk.encryptPoly pr pt a rng := by
  simp only [encryptPolyL, encryptPoly, bind_val, polyNttL_val, mulL_val, randomSmallL_val, subL_val, addL_val, pure_val]

theorem decryptTrialL_val (sk : SecretKey) (a b : Poly) : (sk.decryptTrialL pr a b).val = sk.decryptTrial pr a b := by
  simp only [decryptTrialL, decryptTrial, bind_val, rassert_val, polyNttL_val, mulL_val, addL_val]

theorem phaseStepL_val (s : Poly) (st : Poly × Poly) (c : Poly) : (phaseStepL pr s st c).val = phaseStep pr s st c := by
  simp only [phaseStepL, phaseStep, bind_val, mulL_val, addL_val, pure_val]

theorem phaseL_val (sk : SecretKey) (cts : List Poly) : (sk.phaseL pr cts).val = sk.phase pr cts := by
  simp only [phaseL, phase, bind_val, idx_val, polyNttL_val, fold_val, phaseStepL_val, pure_val]

theorem decryptL_val (sk : SecretKey) (ct : BfvCipherText) : (sk.decryptL pr ct).val = sk.decrypt pr ct := by
  simp only [decryptL, decrypt, bind_val, phaseL_val, changeRepresentationL_val, idx_val, RqScaler.scaleL_val, lift_val, map_val, add_val,
    Modulus.reduceVecU64L_val, pure_val]

end SecretKey
end OnionPIR
