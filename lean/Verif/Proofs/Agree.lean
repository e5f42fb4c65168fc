import Verif.Model.Pir
import Verif.Model.Omr
import Verif.Model.Tests
/-
The debug and the release build of every modelled function agree unless the debug build stops at an overflow or a `debug_assert!`
(used by C84). One lemma per function, in the order of the model files.
-/
namespace OnionPIR

/-- `x` (debug build) and `y` (release build) are the same outcome, or the debug build stopped at an overflow or a `debug_assert!`. -/
def Agree {α : Type _} (x y : Res α) : Prop := x = y ∨ x = .error .overflow ∨ x = .error .debugAssert

theorem Agree.refl {α : Type _} (x : Res α) : Agree x x := .inl rfl

theorem Agree.bind {α β : Type _} {x y : Res α} {f g : α → Res β} (h : Agree x y) (hf : ∀ a, Agree (f a) (g a)) :
    Agree (x >>= f) (y >>= g) := by
  rcases h with rfl | rfl | rfl
  · cases x with
    | error e => exact .inl rfl
    | ok a => exact hf a
  · exact .inr (.inl rfl)
  · exact .inr (.inr rfl)

theorem Agree.ite {α : Type _} {c : Prop} [Decidable c] {x y x' y' : Res α} (h : c → Agree x y) (h' : ¬ c → Agree x' y') :
    Agree (if c then x else x') (if c then y else y') := by
  split
  · exact h ‹_›
  · exact h' ‹_›

theorem Agree.map {α β : Type _} {x y : Res α} {f : α → β} (h : Agree x y) : Agree (f <$> x) (f <$> y) := by
  rcases h with rfl | rfl | rfl
  · exact .inl rfl
  · exact .inr (.inl rfl)
  · exact .inr (.inr rfl)

theorem fit_agree (w x : Nat) : Agree (fit w .debug x) (fit w .release x) := by
  unfold fit
  split
  · exact .inl rfl
  · exact .inr (.inl rfl)

theorem addW_agree (w a b : Nat) : Agree (addW w .debug a b) (addW w .release a b) := fit_agree w _
theorem mulW_agree (w a b : Nat) : Agree (mulW w .debug a b) (mulW w .release a b) := fit_agree w _
theorem powW_agree (w a b : Nat) : Agree (powW w .debug a b) (powW w .release a b) := fit_agree w _
theorem subW_agree (w a b : Nat) : Agree (subW w .debug a b) (subW w .release a b) := by
  unfold subW
  split
  · exact .inl rfl
  · exact .inr (.inl rfl)

theorem dassert_agree (c : Prop) [Decidable c] : Agree (dassert .debug c) (dassert .release c) := by
  unfold dassert
  dsimp only
  split
  · exact .inl rfl
  · exact .inr (.inr rfl)

theorem dassertEqR_agree (x : Nat) {y y' : Res Nat} (h : ∀ e, y = .error e → e = .overflow ∨ e = .debugAssert) :
    Agree (dassertEqR .debug x y) (dassertEqR .release x y') := by
  cases hy : y with
  | error e => rcases h e hy with rfl | rfl
               · exact .inr (.inl rfl)
               · exact .inr (.inr rfl)
  | ok v => exact dassert_agree (x = v)

theorem mapR_agree {α β : Type _} {f g : α → Res β} (h : ∀ a, Agree (f a) (g a)) (l : List α) : Agree (mapR f l) (mapR g l) := by
  induction l with
  | nil => exact .refl _
  | cons a l ih => exact .bind (h a) fun _ => .bind ih fun _ => .refl _

theorem zipR_agree {α β γ : Type _} {f g : α → β → Res γ} (h : ∀ a b, Agree (f a b) (g a b)) (l : List α) (l' : List β) :
    Agree (zipR f l l') (zipR g l l') := by
  induction l generalizing l' with
  | nil => cases l' <;> exact .refl _
  | cons a l ih =>
    cases l' with
    | nil => exact .refl _
    | cons b l' => exact .bind (h a b) fun _ => .bind (ih l') fun _ => .refl _

theorem zipMutM_agree {α β : Type _} {f g : α → β → Res α} (h : ∀ a b, Agree (f a b) (g a b)) (l : List α) (l' : List β) :
    Agree (zipMutM f l l') (zipMutM g l l') := by
  induction l generalizing l' with
  | nil => cases l' <;> exact .refl _
  | cons a l ih =>
    cases l' with
    | nil => exact .refl _
    | cons b l' => exact .bind (h a b) fun _ => .bind (ih l') fun _ => .refl _

theorem foldR_agree {α σ : Type _} {f g : σ → α → Res σ} (h : ∀ s a, Agree (f s a) (g s a)) (s : σ) (l : List α) :
    Agree (foldR f s l) (foldR g s l) := by
  induction l generalizing s with
  | nil => exact .refl _
  | cons a l ih => exact .bind (h s a) fun s' => ih s'

/-- Library lemmas, extended after each function. -/
syntax "agree_lib" : tactic
macro_rules | `(tactic| agree_lib) => `(tactic| apply addW_agree)
macro_rules | `(tactic| agree_lib) => `(tactic| apply mulW_agree)
macro_rules | `(tactic| agree_lib) => `(tactic| apply subW_agree)
macro_rules | `(tactic| agree_lib) => `(tactic| apply powW_agree)
macro_rules | `(tactic| agree_lib) => `(tactic| apply dassert_agree)

/-- Split a computation into its steps and close each with the library. -/
macro "agree" : tactic => `(tactic| repeat' with_reducible (first
  | exact Agree.refl _ | assumption
  | (refine Agree.bind ?_ (fun _ => ?_)) | refine Agree.map ?_ | refine Agree.ite (fun _ => ?_) (fun _ => ?_)
  | refine mapR_agree (fun _ => ?_) _ | refine zipR_agree (fun _ _ => ?_) _ _ | refine zipMutM_agree (fun _ _ => ?_) _ _
  | refine foldR_agree (fun _ _ => ?_) _ _
  | agree_lib | split | dsimp only))
theorem Modulus.lazyReduceCt_agree (m : Modulus) (a : Nat) :
    Agree (Modulus.lazyReduceCt .debug m a) (Modulus.lazyReduceCt .release m a) := by
  unfold Modulus.lazyReduceCt
  agree
macro_rules | `(tactic| agree_lib) => `(tactic| apply Modulus.lazyReduceCt_agree)

theorem Modulus.lazyReduceU128_agree (m : Modulus) (a : Nat) :
    Agree (Modulus.lazyReduceU128 .debug m a) (Modulus.lazyReduceU128 .release m a) := by
  unfold Modulus.lazyReduceU128
  agree
macro_rules | `(tactic| agree_lib) => `(tactic| apply Modulus.lazyReduceU128_agree)

theorem Modulus.reduceCt_agree (x : Nat) (p : Nat) :
    Agree (Modulus.reduceCt .debug x p) (Modulus.reduceCt .release x p) := by
  unfold Modulus.reduceCt
  agree
macro_rules | `(tactic| agree_lib) => `(tactic| apply Modulus.reduceCt_agree)

theorem Modulus.reduce_agree (m : Modulus) (a : Nat) :
    Agree (Modulus.reduce .debug m a) (Modulus.reduce .release m a) := by
  unfold Modulus.reduce
  agree
macro_rules | `(tactic| agree_lib) => `(tactic| apply Modulus.reduce_agree)

theorem Modulus.reduceU128_agree (m : Modulus) (a : Nat) :
    Agree (Modulus.reduceU128 .debug m a) (Modulus.reduceU128 .release m a) := by
  unfold Modulus.reduceU128
  agree
macro_rules | `(tactic| agree_lib) => `(tactic| apply Modulus.reduceU128_agree)

theorem Modulus.reduceI64_agree (m : Modulus) (a : Int) :
    Agree (Modulus.reduceI64 .debug m a) (Modulus.reduceI64 .release m a) := by
  unfold Modulus.reduceI64
  agree
macro_rules | `(tactic| agree_lib) => `(tactic| apply Modulus.reduceI64_agree)

theorem Modulus.reduceVecU64_agree (m : Modulus) (a : List Nat) :
    Agree (Modulus.reduceVecU64 .debug m a) (Modulus.reduceVecU64 .release m a) := by
  unfold Modulus.reduceVecU64
  agree
macro_rules | `(tactic| agree_lib) => `(tactic| apply Modulus.reduceVecU64_agree)

theorem Modulus.reduceVecI64_agree (m : Modulus) (a : List Int) :
    Agree (Modulus.reduceVecI64 .debug m a) (Modulus.reduceVecI64 .release m a) := by
  unfold Modulus.reduceVecI64
  agree
macro_rules | `(tactic| agree_lib) => `(tactic| apply Modulus.reduceVecI64_agree)

theorem Modulus.mul_agree (m : Modulus) (a : Nat) (b : Nat) :
    Agree (Modulus.mul .debug m a b) (Modulus.mul .release m a b) := by
  unfold Modulus.mul
  agree
macro_rules | `(tactic| agree_lib) => `(tactic| apply Modulus.mul_agree)

theorem Modulus.powLoop_agree (m : Modulus) (a r n val : Nat) :
    Agree (powLoop .debug m a r n val) (powLoop .release m a r n val) := by
  induction n generalizing val with
  | zero => exact .refl _
  | succ n ih => unfold powLoop; agree; all_goals apply ih
macro_rules | `(tactic| agree_lib) => `(tactic| apply Modulus.powLoop_agree)

theorem Modulus.pow_agree (m : Modulus) (a : Nat) (r : Nat) :
    Agree (Modulus.pow .debug m a r) (Modulus.pow .release m a r) := by
  unfold Modulus.pow
  agree
macro_rules | `(tactic| agree_lib) => `(tactic| apply Modulus.pow_agree)

theorem Modulus.inv_agree (m : Modulus) (a : Nat) :
    Agree (Modulus.inv .debug m a) (Modulus.inv .release m a) := by
  unfold Modulus.inv
  agree
macro_rules | `(tactic| agree_lib) => `(tactic| apply Modulus.inv_agree)

theorem Modulus.invVec_agree (m : Modulus) (a : List Nat) :
    Agree (Modulus.invVec .debug m a) (Modulus.invVec .release m a) := by
  unfold Modulus.invVec
  agree
macro_rules | `(tactic| agree_lib) => `(tactic| apply Modulus.invVec_agree)

theorem Modulus.add_agree (m : Modulus) (a : Nat) (b : Nat) :
    Agree (Modulus.add .debug m a b) (Modulus.add .release m a b) := by
  unfold Modulus.add
  agree
macro_rules | `(tactic| agree_lib) => `(tactic| apply Modulus.add_agree)

theorem Modulus.sub_agree (m : Modulus) (a : Nat) (b : Nat) :
    Agree (Modulus.sub .debug m a b) (Modulus.sub .release m a b) := by
  unfold Modulus.sub
  agree
macro_rules | `(tactic| agree_lib) => `(tactic| apply Modulus.sub_agree)

theorem Modulus.neg_agree (m : Modulus) (a : Nat) :
    Agree (Modulus.neg .debug m a) (Modulus.neg .release m a) := by
  unfold Modulus.neg
  agree
macro_rules | `(tactic| agree_lib) => `(tactic| apply Modulus.neg_agree)

theorem Modulus.addVec_agree (m : Modulus) (a : List Nat) (b : List Nat) :
    Agree (Modulus.addVec .debug m a b) (Modulus.addVec .release m a b) := by
  unfold Modulus.addVec
  agree
macro_rules | `(tactic| agree_lib) => `(tactic| apply Modulus.addVec_agree)

theorem Modulus.subVec_agree (m : Modulus) (a : List Nat) (b : List Nat) :
    Agree (Modulus.subVec .debug m a b) (Modulus.subVec .release m a b) := by
  unfold Modulus.subVec
  agree
macro_rules | `(tactic| agree_lib) => `(tactic| apply Modulus.subVec_agree)

theorem Modulus.mulVec_agree (m : Modulus) (a : List Nat) (b : List Nat) :
    Agree (Modulus.mulVec .debug m a b) (Modulus.mulVec .release m a b) := by
  unfold Modulus.mulVec
  agree
macro_rules | `(tactic| agree_lib) => `(tactic| apply Modulus.mulVec_agree)

theorem Modulus.negVec_agree (m : Modulus) (a : List Nat) :
    Agree (Modulus.negVec .debug m a) (Modulus.negVec .release m a) := by
  unfold Modulus.negVec
  agree
macro_rules | `(tactic| agree_lib) => `(tactic| apply Modulus.negVec_agree)

theorem Modulus.shoup_agree (m : Modulus) (a : Nat) :
    Agree (Modulus.shoup .debug m a) (Modulus.shoup .release m a) := by
  unfold Modulus.shoup
  agree
macro_rules | `(tactic| agree_lib) => `(tactic| apply Modulus.shoup_agree)

theorem Modulus.shoupVec_agree (m : Modulus) (a : List Nat) :
    Agree (Modulus.shoupVec .debug m a) (Modulus.shoupVec .release m a) := by
  unfold Modulus.shoupVec
  agree
macro_rules | `(tactic| agree_lib) => `(tactic| apply Modulus.shoupVec_agree)

theorem Modulus.shoup_stop (m : Modulus) (b : Nat) : ∀ e, shoup .debug m b = .error e → e = .overflow ∨ e = .debugAssert := by
  intro e h
  unfold shoup dassert divR at h
  dsimp only at h
  split at h
  · rename_i hb
    rw [if_neg (by omega)] at h
    cases h
  · cases h
    exact .inr rfl
macro_rules | `(tactic| agree_lib) => `(tactic| exact dassertEqR_agree _ (Modulus.shoup_stop _ _))

theorem Modulus.lazyMulShoup_agree (m : Modulus) (a b bShoup : Nat) :
    Agree (lazyMulShoup .debug m a b bShoup) (lazyMulShoup .release m a b bShoup) := by
  unfold lazyMulShoup
  agree
macro_rules | `(tactic| agree_lib) => `(tactic| apply Modulus.lazyMulShoup_agree)

theorem Modulus.mulShoup_agree (m : Modulus) (a : Nat) (b : Nat) (bShoup : Nat) :
    Agree (Modulus.mulShoup .debug m a b bShoup) (Modulus.mulShoup .release m a b bShoup) := by
  unfold Modulus.mulShoup
  agree
macro_rules | `(tactic| agree_lib) => `(tactic| apply Modulus.mulShoup_agree)

theorem Modulus.scalarMulVec_agree (m : Modulus) (a : List Nat) (b : Nat) :
    Agree (Modulus.scalarMulVec .debug m a b) (Modulus.scalarMulVec .release m a b) := by
  unfold Modulus.scalarMulVec
  agree
macro_rules | `(tactic| agree_lib) => `(tactic| apply Modulus.scalarMulVec_agree)

theorem Modulus.bits_agree (m : Modulus) :
    Agree (Modulus.bits .debug m) (Modulus.bits .release m) := by
  unfold Modulus.bits
  agree
macro_rules | `(tactic| agree_lib) => `(tactic| apply Modulus.bits_agree)

theorem chunkValue_agree (chunk : List Bool) :
    Agree (chunkValue .debug chunk) (chunkValue .release chunk) := by
  unfold chunkValue
  agree
macro_rules | `(tactic| agree_lib) => `(tactic| apply chunkValue_agree)

theorem decomposeBits_agree (m : Nat) (parentBits : Nat) (decompBits : Nat) :
    Agree (decomposeBits .debug m parentBits decompBits) (decomposeBits .release m parentBits decompBits) := by
  unfold decomposeBits
  agree
macro_rules | `(tactic| agree_lib) => `(tactic| apply decomposeBits_agree)

theorem cbdStep_agree (rng : Nat → Nat) (variance : Nat) (s : CbdState) :
    Agree (cbdStep .debug rng variance s) (cbdStep .release rng variance s) := by
  unfold cbdStep
  agree
macro_rules | `(tactic| agree_lib) => `(tactic| apply cbdStep_agree)

theorem sampleVecCbd_agree (rng : Nat → Nat) (vectorSize : Nat) (variance : Nat) :
    Agree (sampleVecCbd .debug rng vectorSize variance) (sampleVecCbd .release rng vectorSize variance) := by
  unfold sampleVecCbd
  agree
macro_rules | `(tactic| agree_lib) => `(tactic| apply sampleVecCbd_agree)

theorem ilog2_agree (w : Nat) (value : Nat) :
    Agree (ilog2 w .debug value) (ilog2 w .release value) := by
  unfold ilog2
  agree
macro_rules | `(tactic| agree_lib) => `(tactic| apply ilog2_agree)

theorem divCeil_agree (w : Nat) (a : Nat) (b : Nat) :
    Agree (divCeil w .debug a b) (divCeil w .release a b) := by
  unfold divCeil
  agree
macro_rules | `(tactic| agree_lib) => `(tactic| apply divCeil_agree)

theorem generatePrime_agree (numBits : Nat) (modulo : Nat) (upperBound : Nat) :
    Agree (generatePrime .debug numBits modulo upperBound) (generatePrime .release numBits modulo upperBound) := by
  unfold generatePrime
  agree
macro_rules | `(tactic| agree_lib) => `(tactic| apply generatePrime_agree)

theorem U256.toU128_agree (x : U256) :
    Agree (U256.toU128 .debug x) (U256.toU128 .release x) := by
  unfold U256.toU128
  agree
macro_rules | `(tactic| agree_lib) => `(tactic| apply U256.toU128_agree)

theorem U256.toU128s_agree (x : U256) :
    Agree (U256.toU128s .debug x) (U256.toU128s .release x) := by
  unfold U256.toU128s
  agree
macro_rules | `(tactic| agree_lib) => `(tactic| apply U256.toU128s_agree)

theorem U256.shr_agree (x : U256) (rhs : Nat) :
    Agree (U256.shr .debug x rhs) (U256.shr .release x rhs) := by
  unfold U256.shr
  agree
macro_rules | `(tactic| agree_lib) => `(tactic| apply U256.shr_agree)

theorem genModuliLoop_agree (size degree : Nat) (moduli : List Nat) (fuel upperBound : Nat) :
    Agree (genModuliLoop .debug size degree moduli fuel upperBound) (genModuliLoop .release size degree moduli fuel upperBound) := by
  induction fuel generalizing upperBound with
  | zero => exact .refl _
  | succ fuel ih =>
    unfold genModuliLoop
    agree
    all_goals apply ih
macro_rules | `(tactic| agree_lib) => `(tactic| apply genModuliLoop_agree)

theorem genModuliSizes_agree (degree : Nat) (sizes moduli : List Nat) :
    Agree (genModuliSizes .debug degree sizes moduli) (genModuliSizes .release degree sizes moduli) := by
  induction sizes generalizing moduli with
  | nil => exact .refl _
  | cons size sizes ih =>
    unfold genModuliSizes
    agree
    all_goals apply ih
macro_rules | `(tactic| agree_lib) => `(tactic| apply genModuliSizes_agree)

theorem generateModuli_agree (sizes : List Nat) (degree : Nat) :
    Agree (generateModuli .debug sizes degree) (generateModuli .release sizes degree) := by
  unfold generateModuli
  agree
macro_rules | `(tactic| agree_lib) => `(tactic| apply generateModuli_agree)

theorem isPrimitiveRoot_agree (v : Nat) (n : Nat) (p : Modulus) :
    Agree (isPrimitiveRoot .debug v n p) (isPrimitiveRoot .release v n p) := by
  unfold isPrimitiveRoot
  agree
macro_rules | `(tactic| agree_lib) => `(tactic| apply isPrimitiveRoot_agree)

theorem primitiveRootLoop_agree (p : Modulus) (n lambda : Nat) (sample : Nat → Nat) (fuel i : Nat) :
    Agree (primitiveRootLoop .debug p n lambda sample fuel i) (primitiveRootLoop .release p n lambda sample fuel i) := by
  induction fuel generalizing i with
  | zero => exact .refl _
  | succ fuel ih =>
    unfold primitiveRootLoop
    agree
    all_goals apply ih
macro_rules | `(tactic| agree_lib) => `(tactic| apply primitiveRootLoop_agree)

theorem primitiveRoot_agree (n : Nat) (p : Modulus) (sample : Nat → Nat) :
    Agree (primitiveRoot .debug n p sample) (primitiveRoot .release n p sample) := by
  unfold primitiveRoot
  agree
macro_rules | `(tactic| agree_lib) => `(tactic| apply primitiveRoot_agree)

theorem powersLoop_agree (p : Modulus) (omega count v : Nat) :
    Agree (powersLoop .debug p omega count v) (powersLoop .release p omega count v) := by
  induction count generalizing v with
  | zero => exact .refl _
  | succ count ih =>
    unfold powersLoop
    agree
    all_goals apply ih
macro_rules | `(tactic| agree_lib) => `(tactic| apply powersLoop_agree)

theorem NttOperator.new_agree (sample : Nat → Nat) (p : Modulus) (size : Nat) :
    Agree (NttOperator.new .debug sample p size) (NttOperator.new .release sample p size) := by
  unfold NttOperator.new
  agree
macro_rules | `(tactic| agree_lib) => `(tactic| apply NttOperator.new_agree)

theorem NttOperator.butterfly_agree (op : NttOperator) (x : Nat) (y : Nat) (w : Nat) (wShoup : Nat) :
    Agree (NttOperator.butterfly .debug op x y w wShoup) (NttOperator.butterfly .release op x y w wShoup) := by
  unfold NttOperator.butterfly
  agree
macro_rules | `(tactic| agree_lib) => `(tactic| apply NttOperator.butterfly_agree)

theorem NttOperator.butterflyInv_agree (op : NttOperator) (x : Nat) (y : Nat) (zInv : Nat) (zInvShoup : Nat) :
    Agree (NttOperator.butterflyInv .debug op x y zInv zInvShoup) (NttOperator.butterflyInv .release op x y zInv zInvShoup) := by
  unfold NttOperator.butterflyInv
  agree
macro_rules | `(tactic| agree_lib) => `(tactic| apply NttOperator.butterflyInv_agree)

theorem NttOperator.reduce4p_agree (a : Nat) (p : Modulus) :
    Agree (NttOperator.reduce4p .debug a p) (NttOperator.reduce4p .release a p) := by
  unfold NttOperator.reduce4p
  agree
macro_rules | `(tactic| agree_lib) => `(tactic| apply NttOperator.reduce4p_agree)

theorem NttOperator.updatePair_agree (a : List Nat) (j l : Nat) {f g : Nat → Nat → Res (Nat × Nat)}
    (h : ∀ x y, Agree (f x y) (g x y)) : Agree (updatePair a j l f) (updatePair a j l g) := by
  unfold updatePair
  agree
  apply h
macro_rules | `(tactic| agree_lib) => `(tactic| refine NttOperator.updatePair_agree _ _ _ (fun _ _ => ?_))

theorem NttOperator.forwardBlock_agree (op : NttOperator) (l i omega omegaShoup : Nat) (a : List Nat) :
    Agree (forwardBlock .debug op l i omega omegaShoup a) (forwardBlock .release op l i omega omegaShoup a) := by
  unfold forwardBlock
  agree
macro_rules | `(tactic| agree_lib) => `(tactic| apply NttOperator.forwardBlock_agree)

theorem NttOperator.forwardLayer_agree (op : NttOperator) (l : Nat) (m : Nat) (k : Nat) (a : List Nat) :
    Agree (NttOperator.forwardLayer .debug op l m k a) (NttOperator.forwardLayer .release op l m k a) := by
  unfold NttOperator.forwardLayer
  agree
macro_rules | `(tactic| agree_lib) => `(tactic| apply NttOperator.forwardLayer_agree)

theorem NttOperator.forwardLoop_agree (op : NttOperator) (l m k : Nat) (a : List Nat) :
    Agree (forwardLoop .debug op l m k a) (forwardLoop .release op l m k a) := by
  induction l using Nat.strong_induction_on generalizing m k a with
  | _ l ih =>
    rw [forwardLoop, forwardLoop.eq_1 .release]
    by_cases h : l = 0
    · rw [dif_pos h, dif_pos h]
      exact .refl _
    · rw [dif_neg h, dif_neg h]
      agree
      exact ih _ (by simp only [Nat.shiftRight_eq_div_pow]; omega) _ _ _
macro_rules | `(tactic| agree_lib) => `(tactic| apply NttOperator.forwardLoop_agree)

theorem NttOperator.forward_agree (op : NttOperator) (a : List Nat) :
    Agree (NttOperator.forward .debug op a) (NttOperator.forward .release op a) := by
  unfold NttOperator.forward
  agree
macro_rules | `(tactic| agree_lib) => `(tactic| apply NttOperator.forward_agree)

theorem NttOperator.backwardLayer_agree (op : NttOperator) (l : Nat) (m : Nat) (k : Nat) (a : List Nat) :
    Agree (NttOperator.backwardLayer .debug op l m k a) (NttOperator.backwardLayer .release op l m k a) := by
  unfold NttOperator.backwardLayer
  agree
macro_rules | `(tactic| agree_lib) => `(tactic| apply NttOperator.backwardLayer_agree)

theorem NttOperator.backwardLoop_agree (op : NttOperator) (l m k : Nat) (a : List Nat) :
    Agree (backwardLoop .debug op l m k a) (backwardLoop .release op l m k a) := by
  induction m using Nat.strong_induction_on generalizing l k a with
  | _ m ih =>
    rw [backwardLoop, backwardLoop.eq_1 .release]
    by_cases h : m = 0
    · rw [dif_pos h, dif_pos h]
      exact .refl _
    · rw [dif_neg h, dif_neg h]
      agree
      exact ih _ (by simp only [Nat.shiftRight_eq_div_pow]; omega) _ _ _
macro_rules | `(tactic| agree_lib) => `(tactic| apply NttOperator.backwardLoop_agree)

theorem NttOperator.backward_agree (op : NttOperator) (a : List Nat) :
    Agree (NttOperator.backward .debug op a) (NttOperator.backward .release op a) := by
  unfold NttOperator.backward
  agree
macro_rules | `(tactic| agree_lib) => `(tactic| apply NttOperator.backward_agree)

theorem nextPowerOfTwo_agree (x : Nat) : Agree (nextPowerOfTwo .debug x) (nextPowerOfTwo .release x) := by
  unfold nextPowerOfTwo
  agree
  apply fit_agree
macro_rules | `(tactic| agree_lib) => `(tactic| apply nextPowerOfTwo_agree)

theorem RnsScaler.garnerShift_agree (src : RnsContext) :
    Agree (RnsScaler.garnerShift .debug src) (RnsScaler.garnerShift .release src) := by
  unfold RnsScaler.garnerShift
  agree
macro_rules | `(tactic| agree_lib) => `(tactic| apply RnsScaler.garnerShift_agree)

theorem RnsScaler.new_agree (src : RnsContext) (dst : RnsContext) (sf : ScalingFactor) :
    Agree (RnsScaler.new .debug src dst sf) (RnsScaler.new .release src dst sf) := by
  unfold RnsScaler.new
  agree
macro_rules | `(tactic| agree_lib) => `(tactic| apply RnsScaler.new_agree)

theorem RnsScaler.mulWords_agree (ri : Nat) (tLo : Nat) (tHi : Nat) :
    Agree (RnsScaler.mulWords .debug ri tLo tHi) (RnsScaler.mulWords .release ri tLo tHi) := by
  unfold RnsScaler.mulWords
  agree
macro_rules | `(tactic| agree_lib) => `(tactic| apply RnsScaler.mulWords_agree)

theorem RnsScaler.sumThetaGarner_agree (ls hs rs : List Nat) (acc : Nat) :
    Agree (sumThetaGarner .debug ls hs rs acc) (sumThetaGarner .release ls hs rs acc) := by
  induction ls generalizing hs rs acc with
  | nil => exact .refl _
  | cons l ls ih =>
    cases hs with
    | nil => exact .refl _
    | cons h hs =>
      cases rs with
      | nil => exact .refl _
      | cons r rs =>
        unfold sumThetaGarner
        agree
        all_goals apply ih
macro_rules | `(tactic| agree_lib) => `(tactic| apply RnsScaler.sumThetaGarner_agree)

theorem RnsScaler.scaleV_agree (s : RnsScaler) (rests : List Nat) :
    Agree (RnsScaler.scaleV .debug s rests) (RnsScaler.scaleV .release s rests) := by
  unfold RnsScaler.scaleV
  agree
macro_rules | `(tactic| agree_lib) => `(tactic| apply RnsScaler.scaleV_agree)

theorem RnsScaler.sumThetaOmega_agree (ls hs : List Nat) (ss : List Bool) (rs : List Nat) (acc : U256) :
    Agree (sumThetaOmega .debug ls hs ss rs acc) (sumThetaOmega .release ls hs ss rs acc) := by
  induction ls generalizing hs ss rs acc with
  | nil => exact .refl _
  | cons l ls ih =>
    cases hs with
    | nil => exact .refl _
    | cons h hs =>
      cases ss with
      | nil => exact .refl _
      | cons s ss =>
        cases rs with
        | nil => exact .refl _
        | cons r rs =>
          unfold sumThetaOmega
          agree
          all_goals apply ih
macro_rules | `(tactic| agree_lib) => `(tactic| apply RnsScaler.sumThetaOmega_agree)

theorem RnsScaler.vThetaGamma_agree (v : Nat) (tLo : Nat) (tHi : Nat) :
    Agree (RnsScaler.vThetaGamma .debug v tLo tHi) (RnsScaler.vThetaGamma .release v tLo tHi) := by
  unfold RnsScaler.vThetaGamma
  agree
macro_rules | `(tactic| agree_lib) => `(tactic| apply RnsScaler.vThetaGamma_agree)

theorem RnsScaler.roundW_agree (sum : U256) :
    Agree (RnsScaler.roundW .debug sum) (RnsScaler.roundW .release sum) := by
  unfold RnsScaler.roundW
  agree
macro_rules | `(tactic| agree_lib) => `(tactic| apply RnsScaler.roundW_agree)

theorem RnsScaler.scaleW_agree (s : RnsScaler) (rests : List Nat) (v : Nat) :
    Agree (RnsScaler.scaleW .debug s rests v) (RnsScaler.scaleW .release s rests v) := by
  unfold RnsScaler.scaleW
  agree
macro_rules | `(tactic| agree_lib) => `(tactic| apply RnsScaler.scaleW_agree)

theorem RnsScaler.addOmega_agree (qi : Modulus) (rs os ss : List Nat) (yi : Nat) :
    Agree (addOmega .debug qi rs os ss yi) (addOmega .release qi rs os ss yi) := by
  induction rs generalizing os ss yi with
  | nil => exact .refl _
  | cons r rs ih =>
    cases os with
    | nil => exact .refl _
    | cons o os =>
      cases ss with
      | nil => exact .refl _
      | cons s ss =>
        unfold addOmega
        agree
        all_goals apply ih
macro_rules | `(tactic| agree_lib) => `(tactic| apply RnsScaler.addOmega_agree)

theorem RnsScaler.signedW_agree (qi : Modulus) (wSign : Bool) (wi : Nat) :
    Agree (RnsScaler.signedW .debug qi wSign wi) (RnsScaler.signedW .release qi wSign wi) := by
  unfold RnsScaler.signedW
  agree
macro_rules | `(tactic| agree_lib) => `(tactic| apply RnsScaler.signedW_agree)

theorem RnsScaler.addWTerm_agree (s : RnsScaler) (qi : Modulus) (wSign : Bool) (w : Nat) (yi : Nat) :
    Agree (RnsScaler.addWTerm .debug s qi wSign w yi) (RnsScaler.addWTerm .release s qi wSign w yi) := by
  unfold RnsScaler.addWTerm
  agree
macro_rules | `(tactic| agree_lib) => `(tactic| apply RnsScaler.addWTerm_agree)

theorem RnsScaler.scaleOut_agree (s : RnsScaler) (rests : List Nat) (v : Nat) (wSign : Bool) (w : Nat) (j : Nat) :
    Agree (RnsScaler.scaleOut .debug s rests v wSign w j) (RnsScaler.scaleOut .release s rests v wSign w j) := by
  unfold RnsScaler.scaleOut
  agree
macro_rules | `(tactic| agree_lib) => `(tactic| apply RnsScaler.scaleOut_agree)

theorem RnsScaler.scale_agree (s : RnsScaler) (rests : List Nat) (outLen : Nat) (startingIndex : Nat) :
    Agree (RnsScaler.scale .debug s rests outLen startingIndex) (RnsScaler.scale .release s rests outLen startingIndex) := by
  unfold RnsScaler.scale
  agree
macro_rules | `(tactic| agree_lib) => `(tactic| apply RnsScaler.scale_agree)

theorem RqContext.lastInv_agree (qLast : Nat) (qi : Modulus) :
    Agree (RqContext.lastInv .debug qLast qi) (RqContext.lastInv .release qLast qi) := by
  unfold RqContext.lastInv
  agree
macro_rules | `(tactic| agree_lib) => `(tactic| apply RqContext.lastInv_agree)

theorem RqContext.finish_agree (moduli64 : List Nat) (degree : Nat) (bd : BitDecomposition) (rns : RnsContext) (ops : List NttOperator) (next : Option RqContext) :
    Agree (RqContext.finish .debug moduli64 degree bd rns ops next) (RqContext.finish .release moduli64 degree bd rns ops next) := by
  unfold RqContext.finish
  agree
macro_rules | `(tactic| agree_lib) => `(tactic| apply RqContext.finish_agree)

theorem RqContext.newAux_agree (sample : Nat → Nat → Nat) (degree : Nat) (bd : BitDecomposition) (fuel : Nat) (moduli64 : List Nat) :
    Agree (newAux .debug sample degree bd fuel moduli64) (newAux .release sample degree bd fuel moduli64) := by
  induction fuel generalizing moduli64 with
  | zero =>
    unfold newAux
    agree
  | succ fuel ih =>
    unfold newAux
    agree
    all_goals apply ih
macro_rules | `(tactic| agree_lib) => `(tactic| apply RqContext.newAux_agree)

theorem RqContext.new_agree (sample : Nat → Nat → Nat) (moduli64 : List Nat) (degree : Nat) (bd : BitDecomposition) :
    Agree (RqContext.new .debug sample moduli64 degree bd) (RqContext.new .release sample moduli64 degree bd) := by
  unfold RqContext.new
  agree
macro_rules | `(tactic| agree_lib) => `(tactic| apply RqContext.new_agree)

theorem Substitution.powersLoop_agree (degree exponent count power : Nat) :
    Agree (powersLoop .debug degree exponent count power) (powersLoop .release degree exponent count power) := by
  induction count generalizing power with
  | zero => exact .refl _
  | succ count ih =>
    unfold powersLoop
    agree
    all_goals apply ih
macro_rules | `(tactic| agree_lib) => `(tactic| apply Substitution.powersLoop_agree)

theorem Substitution.new_agree (ctx : RqContext) (exponent : Nat) :
    Agree (Substitution.new .debug ctx exponent) (Substitution.new .release ctx exponent) := by
  unfold Substitution.new
  agree
macro_rules | `(tactic| agree_lib) => `(tactic| apply Substitution.new_agree)

theorem Poly.zip3MutM_agree {α β γ : Type _} {f g : α → β → γ → Res α} (h : ∀ a b c, Agree (f a b c) (g a b c)) (l : List α)
    (l' : List β) (l'' : List γ) : Agree (zip3MutM f l l' l'') (zip3MutM g l l' l'') := by
  induction l generalizing l' l'' with
  | nil => exact .refl _
  | cons a l ih =>
    cases l' with
    | nil => exact .refl _
    | cons b l' =>
      cases l'' with
      | nil => exact .refl _
      | cons c l'' => exact .bind (h a b c) fun _ => .bind (ih l' l'') fun _ => .refl _
macro_rules | `(tactic| agree_lib) => `(tactic| refine Poly.zip3MutM_agree (fun _ _ _ => ?_) _ _ _)

theorem Poly.fromRows_agree {α : Type} (ctx : RqContext) {f g : Modulus → List α → Res (List Nat)} (h : ∀ q a, Agree (f q a) (g q a))
    (a : List α) : Agree (fromRows ctx f a) (fromRows ctx g a) := by
  unfold fromRows
  agree
  apply h
macro_rules | `(tactic| agree_lib) => `(tactic| refine Poly.fromRows_agree _ (fun _ _ => ?_) _)

theorem Poly.changeRepresentation_agree (p : Poly) (tgt : Representation) :
    Agree (Poly.changeRepresentation .debug p tgt) (Poly.changeRepresentation .release p tgt) := by
  unfold Poly.changeRepresentation
  agree
macro_rules | `(tactic| agree_lib) => `(tactic| apply Poly.changeRepresentation_agree)

theorem Poly.substValue_agree (degree : Nat) (power : Nat) (q : Modulus) (t : Nat) (o : Nat) :
    Agree (Poly.substValue .debug degree power q t o) (Poly.substValue .release degree power q t o) := by
  unfold Poly.substValue
  agree
macro_rules | `(tactic| agree_lib) => `(tactic| apply Poly.substValue_agree)

theorem Poly.substStep_agree (degree : Nat) (exponent : Nat) (q : Modulus) (src : List Nat) (st : List Nat × Nat) (j : Nat) :
    Agree (Poly.substStep .debug degree exponent q src st j) (Poly.substStep .release degree exponent q src st j) := by
  unfold Poly.substStep
  agree
macro_rules | `(tactic| agree_lib) => `(tactic| apply Poly.substStep_agree)

theorem Poly.substRowPower_agree (degree : Nat) (exponent : Nat) (zeros : List Nat) (src : List Nat) (q : Modulus) :
    Agree (Poly.substRowPower .debug degree exponent zeros src q) (Poly.substRowPower .release degree exponent zeros src q) := by
  unfold Poly.substRowPower
  agree
macro_rules | `(tactic| agree_lib) => `(tactic| apply Poly.substRowPower_agree)

theorem Poly.substitute_agree (p : Poly) (a : Substitution) :
    Agree (Poly.substitute .debug p a) (Poly.substitute .release p a) := by
  unfold Poly.substitute
  agree
macro_rules | `(tactic| agree_lib) => `(tactic| apply Poly.substitute_agree)

theorem Poly.switchCoeff_agree (qi : Modulus) (inv : Nat) (invShoup : Nat) (half : Nat) (coeff : Nat) (qLastCoeff : Nat) :
    Agree (Poly.switchCoeff .debug qi inv invShoup half coeff qLastCoeff) (Poly.switchCoeff .release qi inv invShoup half coeff qLastCoeff) := by
  unfold Poly.switchCoeff
  agree
macro_rules | `(tactic| agree_lib) => `(tactic| apply Poly.switchCoeff_agree)

theorem Poly.switchRow_agree (lastRow : List Nat) (qLastDiv2 : Nat) (row : List Nat) (qi : Modulus) (inv : Nat × Nat) :
    Agree (Poly.switchRow .debug lastRow qLastDiv2 row qi inv) (Poly.switchRow .release lastRow qLastDiv2 row qi inv) := by
  unfold Poly.switchRow
  agree
macro_rules | `(tactic| agree_lib) => `(tactic| apply Poly.switchRow_agree)

theorem Poly.modSwitchDownNext_agree (p : Poly) :
    Agree (Poly.modSwitchDownNext .debug p) (Poly.modSwitchDownNext .release p) := by
  unfold Poly.modSwitchDownNext
  agree
macro_rules | `(tactic| agree_lib) => `(tactic| apply Poly.modSwitchDownNext_agree)

theorem Poly.modSwitchTo_agree (p : Poly) (ctx : RqContext) :
    Agree (Poly.modSwitchTo .debug p ctx) (Poly.modSwitchTo .release p ctx) := by
  unfold Poly.modSwitchTo
  agree
macro_rules | `(tactic| agree_lib) => `(tactic| apply Poly.modSwitchTo_agree)

theorem Poly.bitDecompStep_agree (bd : BitDecomposition) (q : Modulus) (cv : Nat × Nat) :
    Agree (Poly.bitDecompStep .debug bd q cv) (Poly.bitDecompStep .release bd q cv) := by
  unfold Poly.bitDecompStep
  agree
macro_rules | `(tactic| agree_lib) => `(tactic| apply Poly.bitDecompStep_agree)

theorem Poly.applyBitDecomposition_agree (p : Poly) :
    Agree (Poly.applyBitDecomposition .debug p) (Poly.applyBitDecomposition .release p) := by
  unfold Poly.applyBitDecomposition
  agree
macro_rules | `(tactic| agree_lib) => `(tactic| apply Poly.applyBitDecomposition_agree)

theorem Poly.inverse_agree (p : Poly) :
    Agree (Poly.inverse .debug p) (Poly.inverse .release p) := by
  unfold Poly.inverse
  agree
macro_rules | `(tactic| agree_lib) => `(tactic| apply Poly.inverse_agree)

theorem Poly.tryFromVecU64_agree (ctx : RqContext) (a : List Nat) :
    Agree (Poly.tryFromVecU64 .debug ctx a) (Poly.tryFromVecU64 .release ctx a) := by
  unfold Poly.tryFromVecU64
  agree
macro_rules | `(tactic| agree_lib) => `(tactic| apply Poly.tryFromVecU64_agree)

theorem Poly.tryFromVecI64_agree (ctx : RqContext) (a : List Int) :
    Agree (Poly.tryFromVecI64 .debug ctx a) (Poly.tryFromVecI64 .release ctx a) := by
  unfold Poly.tryFromVecI64
  agree
macro_rules | `(tactic| agree_lib) => `(tactic| apply Poly.tryFromVecI64_agree)

theorem Poly.randomSmall_agree (ctx : RqContext) (rep : Representation) (variance : Nat) (rng : Nat → Nat) :
    Agree (Poly.randomSmall .debug ctx rep variance rng) (Poly.randomSmall .release ctx rep variance rng) := by
  unfold Poly.randomSmall
  agree
macro_rules | `(tactic| agree_lib) => `(tactic| apply Poly.randomSmall_agree)

theorem Poly.add_agree (a : Poly) (b : Poly) :
    Agree (Poly.add .debug a b) (Poly.add .release a b) := by
  unfold Poly.add
  agree
macro_rules | `(tactic| agree_lib) => `(tactic| apply Poly.add_agree)

theorem Poly.sub_agree (a : Poly) (b : Poly) :
    Agree (Poly.sub .debug a b) (Poly.sub .release a b) := by
  unfold Poly.sub
  agree
macro_rules | `(tactic| agree_lib) => `(tactic| apply Poly.sub_agree)

theorem Poly.mul_agree (a : Poly) (b : Poly) :
    Agree (Poly.mul .debug a b) (Poly.mul .release a b) := by
  unfold Poly.mul
  agree
macro_rules | `(tactic| agree_lib) => `(tactic| apply Poly.mul_agree)

theorem Poly.mulBig_agree (a : Poly) (b : Nat) :
    Agree (Poly.mulBig .debug a b) (Poly.mulBig .release a b) := by
  unfold Poly.mulBig
  agree
macro_rules | `(tactic| agree_lib) => `(tactic| apply Poly.mulBig_agree)

theorem Poly.neg_agree (p : Poly) :
    Agree (Poly.neg .debug p) (Poly.neg .release p) := by
  unfold Poly.neg
  agree
macro_rules | `(tactic| agree_lib) => `(tactic| apply Poly.neg_agree)

theorem RqScaler.new_agree (src : RqContext) (dst : RqContext) (sf : ScalingFactor) :
    Agree (RqScaler.new .debug src dst sf) (RqScaler.new .release src dst sf) := by
  unfold RqScaler.new
  agree
macro_rules | `(tactic| agree_lib) => `(tactic| apply RqScaler.new_agree)

theorem RqScaler.scaleColumns_agree (s : RqScaler) (p : Poly) :
    Agree (RqScaler.scaleColumns .debug s p) (RqScaler.scaleColumns .release s p) := by
  unfold RqScaler.scaleColumns
  agree
macro_rules | `(tactic| agree_lib) => `(tactic| apply RqScaler.scaleColumns_agree)

theorem RqScaler.scalePower_agree (s : RqScaler) (p : Poly) :
    Agree (RqScaler.scalePower .debug s p) (RqScaler.scalePower .release s p) := by
  unfold RqScaler.scalePower
  agree
macro_rules | `(tactic| agree_lib) => `(tactic| apply RqScaler.scalePower_agree)

theorem RqScaler.scale_agree (s : RqScaler) (p : Poly) :
    Agree (RqScaler.scale .debug s p) (RqScaler.scale .release s p) := by
  unfold RqScaler.scale
  agree
macro_rules | `(tactic| agree_lib) => `(tactic| apply RqScaler.scale_agree)

theorem MultiplicationParameters.new_agree (src : RqContext) (dst : RqContext) (up : ScalingFactor) (down : ScalingFactor) :
    Agree (MultiplicationParameters.new .debug src dst up down) (MultiplicationParameters.new .release src dst up down) := by
  unfold MultiplicationParameters.new
  agree
macro_rules | `(tactic| agree_lib) => `(tactic| apply MultiplicationParameters.new_agree)

theorem BfvParameters.extLoop_agree (degree : Nat) (moduli : List Nat) (fuel : Nat) (acc : List Nat) (upperBound : Nat) :
    Agree (extLoop .debug degree moduli fuel acc upperBound) (extLoop .release degree moduli fuel acc upperBound) := by
  induction fuel generalizing acc upperBound with
  | zero => exact .refl _
  | succ fuel ih =>
    unfold extLoop
    agree
    all_goals apply ih
macro_rules | `(tactic| agree_lib) => `(tactic| apply BfvParameters.extLoop_agree)

theorem BfvParameters.tInvRest_agree (t : Nat) (q : Nat) :
    Agree (BfvParameters.tInvRest .debug t q) (BfvParameters.tInvRest .release t q) := by
  unfold BfvParameters.tInvRest
  agree
macro_rules | `(tactic| agree_lib) => `(tactic| apply BfvParameters.tInvRest_agree)

theorem BfvParameters.level_agree (sample : Nat → Nat → Nat) (degree : Nat) (t : Nat) (moduli : List Nat) (ext : List Nat) (tInvs : List Nat) (bd : BitDecomposition) (ptCtx : RqContext) (i : Nat) :
    Agree (BfvParameters.level .debug sample degree t moduli ext tInvs bd ptCtx i) (BfvParameters.level .release sample degree t moduli ext tInvs bd ptCtx i) := by
  unfold BfvParameters.level
  agree
macro_rules | `(tactic| agree_lib) => `(tactic| apply BfvParameters.level_agree)

theorem BfvParameters.indexStep_agree (degree : Nat) (rowSize : Nat) (m : Nat) (st : List Nat × Nat) (i : Nat) :
    Agree (BfvParameters.indexStep .debug degree rowSize m st i) (BfvParameters.indexStep .release degree rowSize m st i) := by
  unfold BfvParameters.indexStep
  agree
macro_rules | `(tactic| agree_lib) => `(tactic| apply BfvParameters.indexStep_agree)

theorem BfvParameters.indexMap_agree (degree : Nat) :
    Agree (BfvParameters.indexMap .debug degree) (BfvParameters.indexMap .release degree) := by
  unfold BfvParameters.indexMap
  agree
macro_rules | `(tactic| agree_lib) => `(tactic| apply BfvParameters.indexMap_agree)

theorem BfvParameters.new_agree (sample : Nat → Nat → Nat) (degree : Nat) (t : Nat) (moduli : List Nat) (variance : Nat) (bd : BitDecomposition) :
    Agree (BfvParameters.new .debug sample degree t moduli variance bd) (BfvParameters.new .release sample degree t moduli variance bd) := by
  unfold BfvParameters.new
  agree
macro_rules | `(tactic| agree_lib) => `(tactic| apply BfvParameters.new_agree)

theorem BfvParameters.default_agree (sample : Nat → Nat → Nat) (numOfModuli : Nat) (degree : Nat) (bd : BitDecomposition) :
    Agree (BfvParameters.default .debug sample numOfModuli degree bd) (BfvParameters.default .release sample numOfModuli degree bd) := by
  unfold BfvParameters.default
  agree
macro_rules | `(tactic| agree_lib) => `(tactic| apply BfvParameters.default_agree)

theorem Plaintext.encode_agree (P : BfvParameters) (values : List Nat) (x3 : Encoding) :
    Agree (Plaintext.encode .debug P values x3) (Plaintext.encode .release P values x3) := by
  unfold Plaintext.encode
  agree
macro_rules | `(tactic| agree_lib) => `(tactic| apply Plaintext.encode_agree)

theorem Plaintext.new_agree (P : BfvParameters) (values : List Nat) (level : Nat) (encoding : Encoding) :
    Agree (Plaintext.new .debug P values level encoding) (Plaintext.new .release P values level encoding) := by
  unfold Plaintext.new
  agree
macro_rules | `(tactic| agree_lib) => `(tactic| apply Plaintext.new_agree)

theorem Plaintext.decode_agree (p : Plaintext) :
    Agree (Plaintext.decode .debug p) (Plaintext.decode .release p) := by
  unfold Plaintext.decode
  agree
macro_rules | `(tactic| agree_lib) => `(tactic| apply Plaintext.decode_agree)

theorem Plaintext.toPoly_agree (p : Plaintext) :
    Agree (Plaintext.toPoly .debug p) (Plaintext.toPoly .release p) := by
  unfold Plaintext.toPoly
  agree
macro_rules | `(tactic| agree_lib) => `(tactic| apply Plaintext.toPoly_agree)

theorem BfvCipherText.add_agree (a : BfvCipherText) (b : BfvCipherText) :
    Agree (BfvCipherText.add .debug a b) (BfvCipherText.add .release a b) := by
  unfold BfvCipherText.add
  agree
macro_rules | `(tactic| agree_lib) => `(tactic| apply BfvCipherText.add_agree)

theorem BfvCipherText.addPoly_agree (a : BfvCipherText) (p : Poly) :
    Agree (BfvCipherText.addPoly .debug a p) (BfvCipherText.addPoly .release a p) := by
  unfold BfvCipherText.addPoly
  agree
macro_rules | `(tactic| agree_lib) => `(tactic| apply BfvCipherText.addPoly_agree)

theorem BfvCipherText.sub_agree (a : BfvCipherText) (b : BfvCipherText) :
    Agree (BfvCipherText.sub .debug a b) (BfvCipherText.sub .release a b) := by
  unfold BfvCipherText.sub
  agree
macro_rules | `(tactic| agree_lib) => `(tactic| apply BfvCipherText.sub_agree)

theorem BfvCipherText.mulStep_agree (xs : List Poly) (ys : List Poly) (cs : List Poly) (ij : Nat × Nat) :
    Agree (BfvCipherText.mulStep .debug xs ys cs ij) (BfvCipherText.mulStep .release xs ys cs ij) := by
  unfold BfvCipherText.mulStep
  agree
macro_rules | `(tactic| agree_lib) => `(tactic| apply BfvCipherText.mulStep_agree)

theorem BfvCipherText.mul_agree (a : BfvCipherText) (b : BfvCipherText) :
    Agree (BfvCipherText.mul .debug a b) (BfvCipherText.mul .release a b) := by
  unfold BfvCipherText.mul
  agree
macro_rules | `(tactic| agree_lib) => `(tactic| apply BfvCipherText.mul_agree)

theorem BfvCipherText.mulPoly_agree (a : BfvCipherText) (p : Poly) :
    Agree (BfvCipherText.mulPoly .debug a p) (BfvCipherText.mulPoly .release a p) := by
  unfold BfvCipherText.mulPoly
  agree
macro_rules | `(tactic| agree_lib) => `(tactic| apply BfvCipherText.mulPoly_agree)

theorem BfvCipherText.mulPlain_agree (a : BfvCipherText) (p : Plaintext) :
    Agree (BfvCipherText.mulPlain .debug a p) (BfvCipherText.mulPlain .release a p) := by
  unfold BfvCipherText.mulPlain
  agree
macro_rules | `(tactic| agree_lib) => `(tactic| apply BfvCipherText.mulPlain_agree)

theorem BfvCipherText.mulBig_agree (a : BfvCipherText) (n : Nat) :
    Agree (BfvCipherText.mulBig .debug a n) (BfvCipherText.mulBig .release a n) := by
  unfold BfvCipherText.mulBig
  agree
macro_rules | `(tactic| agree_lib) => `(tactic| apply BfvCipherText.mulBig_agree)

theorem SecretKey.generate_agree (P : BfvParameters) (rng : Nat → Nat) :
    Agree (SecretKey.generate .debug P rng) (SecretKey.generate .release P rng) := by
  unfold SecretKey.generate
  agree
macro_rules | `(tactic| agree_lib) => `(tactic| apply SecretKey.generate_agree)

theorem SecretKey.polyNtt_agree (sk : SecretKey) (ctx : RqContext) :
    Agree (SecretKey.polyNtt .debug sk ctx) (SecretKey.polyNtt .release sk ctx) := by
  unfold SecretKey.polyNtt
  agree
macro_rules | `(tactic| agree_lib) => `(tactic| apply SecretKey.polyNtt_agree)

theorem SecretKey.encryptPoly_agree (sk : SecretKey) (pt : Poly) (aTape : Nat → Nat → Nat) (rng : Nat → Nat) :
    Agree (SecretKey.encryptPoly .debug sk pt aTape rng) (SecretKey.encryptPoly .release sk pt aTape rng) := by
  unfold SecretKey.encryptPoly
  agree
macro_rules | `(tactic| agree_lib) => `(tactic| apply SecretKey.encryptPoly_agree)

theorem SecretKey.encrypt_agree (sk : SecretKey) (pt : Plaintext) (aTape : Nat → Nat → Nat) (rng : Nat → Nat) :
    Agree (SecretKey.encrypt .debug sk pt aTape rng) (SecretKey.encrypt .release sk pt aTape rng) := by
  unfold SecretKey.encrypt
  agree
macro_rules | `(tactic| agree_lib) => `(tactic| apply SecretKey.encrypt_agree)

theorem SecretKey.decryptTrial_agree (sk : SecretKey) (ct0 : Poly) (ct1 : Poly) :
    Agree (SecretKey.decryptTrial .debug sk ct0 ct1) (SecretKey.decryptTrial .release sk ct0 ct1) := by
  unfold SecretKey.decryptTrial
  agree
macro_rules | `(tactic| agree_lib) => `(tactic| apply SecretKey.decryptTrial_agree)

theorem SecretKey.phaseStep_agree (s : Poly) (st : Poly × Poly) (c : Poly) :
    Agree (SecretKey.phaseStep .debug s st c) (SecretKey.phaseStep .release s st c) := by
  unfold SecretKey.phaseStep
  agree
macro_rules | `(tactic| agree_lib) => `(tactic| apply SecretKey.phaseStep_agree)

theorem SecretKey.phase_agree (sk : SecretKey) (cts : List Poly) :
    Agree (SecretKey.phase .debug sk cts) (SecretKey.phase .release sk cts) := by
  unfold SecretKey.phase
  agree
macro_rules | `(tactic| agree_lib) => `(tactic| apply SecretKey.phase_agree)

theorem SecretKey.decrypt_agree (sk : SecretKey) (ct : BfvCipherText) :
    Agree (SecretKey.decrypt .debug sk ct) (SecretKey.decrypt .release sk ct) := by
  unfold SecretKey.decrypt
  agree
macro_rules | `(tactic| agree_lib) => `(tactic| apply SecretKey.decrypt_agree)

theorem SecretKey.measureNoise_agree (sk : SecretKey) (ct : BfvCipherText) :
    Agree (SecretKey.measureNoise .debug sk ct) (SecretKey.measureNoise .release sk ct) := by
  unfold SecretKey.measureNoise
  agree
macro_rules | `(tactic| agree_lib) => `(tactic| apply SecretKey.measureNoise_agree)

theorem Ksk.newC0_agree (params : BfvParameters) (kskCtx : RqContext) (s : Poly) (src : Poly) (c1 : Poly) (garner : Nat) (rng : Nat → Nat) :
    Agree (Ksk.newC0 .debug params kskCtx s src c1 garner rng) (Ksk.newC0 .release params kskCtx s src c1 garner rng) := by
  unfold Ksk.newC0
  agree
macro_rules | `(tactic| agree_lib) => `(tactic| apply Ksk.newC0_agree)

theorem Ksk.new_agree (sk : SecretKey) (src : Poly) (ctLevel : Nat) (kskLevel : Nat) (aTape : Nat → Nat → Nat → Nat) (rng : Nat → Nat → Nat) :
    Agree (Ksk.new .debug sk src ctLevel kskLevel aTape rng) (Ksk.new .release sk src ctLevel kskLevel aTape rng) := by
  unfold Ksk.new
  agree
macro_rules | `(tactic| agree_lib) => `(tactic| apply Ksk.new_agree)

theorem Ksk.newWithPt_agree (sk : SecretKey) (src : Plaintext) (ctLevel : Nat) (kskLevel : Nat) (aTape : Nat → Nat → Nat → Nat) (rng : Nat → Nat → Nat) :
    Agree (Ksk.newWithPt .debug sk src ctLevel kskLevel aTape rng) (Ksk.newWithPt .release sk src ctLevel kskLevel aTape rng) := by
  unfold Ksk.newWithPt
  agree
macro_rules | `(tactic| agree_lib) => `(tactic| apply Ksk.newWithPt_agree)

theorem Ksk.switchStep_agree (kskCtx : RqContext) (st : Poly × Poly) (x : List Nat × Poly × Poly) :
    Agree (Ksk.switchStep .debug kskCtx st x) (Ksk.switchStep .release kskCtx st x) := by
  unfold Ksk.switchStep
  agree
macro_rules | `(tactic| agree_lib) => `(tactic| apply Ksk.switchStep_agree)

theorem Ksk.keySwitch_agree (k : Ksk) (p : Poly) :
    Agree (Ksk.keySwitch .debug k p) (Ksk.keySwitch .release k p) := by
  unfold Ksk.keySwitch
  agree
macro_rules | `(tactic| agree_lib) => `(tactic| apply Ksk.keySwitch_agree)

theorem GaliosKey.new_agree (sk : SecretKey) (i : Substitution) (level : Nat) (aTape : Nat → Nat → Nat → Nat) (rng : Nat → Nat → Nat) :
    Agree (GaliosKey.new .debug sk i level aTape rng) (GaliosKey.new .release sk i level aTape rng) := by
  unfold GaliosKey.new
  agree
macro_rules | `(tactic| agree_lib) => `(tactic| apply GaliosKey.new_agree)

theorem GaliosKey.relinearize_agree (g : GaliosKey) (ct : BfvCipherText) :
    Agree (GaliosKey.relinearize .debug g ct) (GaliosKey.relinearize .release g ct) := by
  unfold GaliosKey.relinearize
  agree
macro_rules | `(tactic| agree_lib) => `(tactic| apply GaliosKey.relinearize_agree)

theorem RelinearizationKey.new_agree (sk : SecretKey) (level : Nat) (aTape : Nat → Nat → Nat → Nat) (rng : Nat → Nat → Nat) :
    Agree (RelinearizationKey.new .debug sk level aTape rng) (RelinearizationKey.new .release sk level aTape rng) := by
  unfold RelinearizationKey.new
  agree
macro_rules | `(tactic| agree_lib) => `(tactic| apply RelinearizationKey.new_agree)

theorem RelinearizationKey.relinearizePoly_agree (k : RelinearizationKey) (p : Poly) :
    Agree (RelinearizationKey.relinearizePoly .debug k p) (RelinearizationKey.relinearizePoly .release k p) := by
  unfold RelinearizationKey.relinearizePoly
  agree
macro_rules | `(tactic| agree_lib) => `(tactic| apply RelinearizationKey.relinearizePoly_agree)

theorem multiplyWithStrategy_agree (lhs : BfvCipherText) (rhs : BfvCipherText) (rlk : RelinearizationKey) :
    Agree (multiplyWithStrategy .debug lhs rhs rlk) (multiplyWithStrategy .release lhs rhs rlk) := by
  unfold multiplyWithStrategy
  agree
macro_rules | `(tactic| agree_lib) => `(tactic| apply multiplyWithStrategy_agree)

theorem RgswCt.encryptPoly_agree (sk : SecretKey) (m : Poly) (aTape0 : Nat → Nat → Nat → Nat) (aTape1 : Nat → Nat → Nat → Nat) (rng0 : Nat → Nat → Nat) (rng1 : Nat → Nat → Nat) :
    Agree (RgswCt.encryptPoly .debug sk m aTape0 aTape1 rng0 rng1) (RgswCt.encryptPoly .release sk m aTape0 aTape1 rng0 rng1) := by
  unfold RgswCt.encryptPoly
  agree
macro_rules | `(tactic| agree_lib) => `(tactic| apply RgswCt.encryptPoly_agree)

theorem RgswCt.encrypt_agree (sk : SecretKey) (m : Plaintext) (aTape0 : Nat → Nat → Nat → Nat) (aTape1 : Nat → Nat → Nat → Nat) (rng0 : Nat → Nat → Nat) (rng1 : Nat → Nat → Nat) :
    Agree (RgswCt.encrypt .debug sk m aTape0 aTape1 rng0 rng1) (RgswCt.encrypt .release sk m aTape0 aTape1 rng0 rng1) := by
  unfold RgswCt.encrypt
  agree
macro_rules | `(tactic| agree_lib) => `(tactic| apply RgswCt.encrypt_agree)

theorem RgswCt.externalProduct_agree (g : RgswCt) (ct : BfvCipherText) :
    Agree (RgswCt.externalProduct .debug g ct) (RgswCt.externalProduct .release g ct) := by
  unfold RgswCt.externalProduct
  agree
macro_rules | `(tactic| agree_lib) => `(tactic| apply RgswCt.externalProduct_agree)



theorem Client.encode_agree (c : Client) (queryDims : List Nat) (dbRows : Nat) :
    Agree (Client.encode .debug c queryDims dbRows) (Client.encode .release c queryDims dbRows) := by
  unfold Client.encode
  agree
macro_rules | `(tactic| agree_lib) => `(tactic| apply Client.encode_agree)

theorem Evaluation.buildStep_agree (sk : SecretKey) (params : BfvParameters) (aTape : Nat → Nat → Nat → Nat → Nat) (rng : Nat → Nat → Nat → Nat) (m : List (Nat × GaliosKey)) (i : Nat) :
    Agree (Evaluation.buildStep .debug sk params aTape rng m i) (Evaluation.buildStep .release sk params aTape rng m i) := by
  unfold Evaluation.buildStep
  agree
macro_rules | `(tactic| agree_lib) => `(tactic| apply Evaluation.buildStep_agree)

theorem Evaluation.build_agree (sk : SecretKey) (params : BfvParameters) (aTape : Nat → Nat → Nat → Nat → Nat) (rng : Nat → Nat → Nat → Nat) (aTape0 : Nat → Nat → Nat → Nat) (aTape1 : Nat → Nat → Nat → Nat) (rng0 : Nat → Nat → Nat) (rng1 : Nat → Nat → Nat) :
    Agree (Evaluation.build .debug sk params aTape rng aTape0 aTape1 rng0 rng1) (Evaluation.build .release sk params aTape rng aTape0 aTape1 rng0 rng1) := by
  unfold Evaluation.build
  agree
macro_rules | `(tactic| agree_lib) => `(tactic| apply Evaluation.build_agree)

theorem Evaluation.xPow_agree (n : Nat) (x : Poly) (i : Nat) :
    Agree (Evaluation.xPow .debug n x i) (Evaluation.xPow .release n x i) := by
  unfold Evaluation.xPow
  agree
macro_rules | `(tactic| agree_lib) => `(tactic| apply Evaluation.xPow_agree)

theorem Evaluation.genXPows_agree (n : Nat) (ctx : RqContext) :
    Agree (Evaluation.genXPows .debug n ctx) (Evaluation.genXPows .release n ctx) := by
  unfold Evaluation.genXPows
  agree
macro_rules | `(tactic| agree_lib) => `(tactic| apply Evaluation.genXPows_agree)

theorem Evaluation.unpackStep_agree (ev : Evaluation) (xPows : List Poly) (exponent : Nat) (i : Nat) (bits : List BfvCipherText) (j : Nat) :
    Agree (Evaluation.unpackStep .debug ev xPows exponent i bits j) (Evaluation.unpackStep .release ev xPows exponent i bits j) := by
  unfold Evaluation.unpackStep
  agree
macro_rules | `(tactic| agree_lib) => `(tactic| apply Evaluation.unpackStep_agree)

theorem Evaluation.unpackStage_agree (ev : Evaluation) (xPows : List Poly) (n : Nat) (bits : List BfvCipherText) (i : Nat) :
    Agree (Evaluation.unpackStage .debug ev xPows n bits i) (Evaluation.unpackStage .release ev xPows n bits i) := by
  unfold Evaluation.unpackStage
  agree
macro_rules | `(tactic| agree_lib) => `(tactic| apply Evaluation.unpackStage_agree)

theorem Evaluation.unpackWith_agree (ev : Evaluation) (xPows : List Poly) (ct : BfvCipherText) :
    Agree (Evaluation.unpackWith .debug ev xPows ct) (Evaluation.unpackWith .release ev xPows ct) := by
  unfold Evaluation.unpackWith
  agree
macro_rules | `(tactic| agree_lib) => `(tactic| apply Evaluation.unpackWith_agree)

theorem ilog2_stop (w x : Nat) : ∀ e, ilog2 w .debug x = .error e → e = .overflow ∨ e = .debugAssert := by
  intro e h
  unfold ilog2 subW at h
  split at h
  · cases h
  · cases h
    exact .inl rfl
macro_rules | `(tactic| agree_lib) => `(tactic| exact dassertEqR_agree _ (ilog2_stop _ _))

theorem Evaluation.unpack_agree (ev : Evaluation) (ct : BfvCipherText) :
    Agree (Evaluation.unpack .debug ev ct) (Evaluation.unpack .release ev ct) := by
  unfold Evaluation.unpack
  agree
macro_rules | `(tactic| agree_lib) => `(tactic| apply Evaluation.unpack_agree)

theorem Server.scaledRow_agree (params : BfvParameters) (p : Plaintext) :
    Agree (Server.scaledRow .debug params p) (Server.scaledRow .release params p) := by
  unfold Server.scaledRow
  agree
macro_rules | `(tactic| agree_lib) => `(tactic| apply Server.scaledRow_agree)

theorem Server.new_agree (firstDim : Nat) (dim : Nat) (db : List Plaintext) (params : BfvParameters) :
    Agree (Server.new .debug firstDim dim db params) (Server.new .release firstDim dim db params) := by
  unfold Server.new
  agree
macro_rules | `(tactic| agree_lib) => `(tactic| apply Server.new_agree)

theorem Server.noOfCtsLoop_agree (dim fuel len count : Nat) :
    Agree (noOfCtsLoop .debug dim fuel len count) (noOfCtsLoop .release dim fuel len count) := by
  induction fuel generalizing len count with
  | zero => exact .refl _
  | succ fuel ih =>
    unfold noOfCtsLoop
    agree
    all_goals apply ih
macro_rules | `(tactic| agree_lib) => `(tactic| apply Server.noOfCtsLoop_agree)

theorem Server.noOfCts_agree (s : Server) (fuel : Nat) :
    Agree (Server.noOfCts .debug s fuel) (Server.noOfCts .release s fuel) := by
  unfold Server.noOfCts
  agree
macro_rules | `(tactic| agree_lib) => `(tactic| apply Server.noOfCts_agree)

theorem Server.dimensions_agree (s : Server) :
    Agree (Server.dimensions .debug s) (Server.dimensions .release s) := by
  unfold Server.dimensions
  agree
macro_rules | `(tactic| agree_lib) => `(tactic| apply Server.dimensions_agree)

theorem Server.product_agree (params : BfvParameters) (g : RgswCt) (ct : BfvCipherText) :
    Agree (Server.product .debug params g ct) (Server.product .release params g ct) := by
  unfold Server.product
  agree
macro_rules | `(tactic| agree_lib) => `(tactic| apply Server.product_agree)

theorem Server.selectorRgsw_agree (params : BfvParameters) (skRgsw : RgswCt) (vals : List (List BfvCipherText)) (i : Nat) :
    Agree (Server.selectorRgsw .debug params skRgsw vals i) (Server.selectorRgsw .release params skRgsw vals i) := by
  unfold Server.selectorRgsw
  agree
macro_rules | `(tactic| agree_lib) => `(tactic| apply Server.selectorRgsw_agree)

theorem Server.sumStep_agree {α : Type} {f g : α → Res BfvCipherText} (h : ∀ x, Agree (f x) (g x)) (sum : Option BfvCipherText) (x : α) :
    Agree (sumStep .debug f sum x) (sumStep .release g sum x) := by
  unfold sumStep
  agree
  apply h
macro_rules | `(tactic| agree_lib) => `(tactic| refine Server.sumStep_agree (fun _ => ?_) _ _)

theorem Server.sumProducts_agree {α : Type} (params : BfvParameters) {f g : α → Res BfvCipherText} (h : ∀ x, Agree (f x) (g x))
    (xs : List α) : Agree (sumProducts .debug params f xs) (sumProducts .release params g xs) := by
  unfold sumProducts
  agree
  apply h
macro_rules | `(tactic| agree_lib) => `(tactic| refine Server.sumProducts_agree _ (fun _ => ?_) _)

theorem Server.firstDimension_agree (params : BfvParameters) (firstDim : Nat) (cts : List BfvCipherText) (rows : List Poly) :
    Agree (Server.firstDimension .debug params firstDim cts rows) (Server.firstDimension .release params firstDim cts rows) := by
  unfold Server.firstDimension
  agree
macro_rules | `(tactic| agree_lib) => `(tactic| apply Server.firstDimension_agree)

theorem Server.nextDimension_agree (params : BfvParameters) (dim : Nat) (db : List BfvCipherText) (rgsws : List RgswCt) :
    Agree (Server.nextDimension .debug params dim db rgsws) (Server.nextDimension .release params dim db rgsws) := by
  unfold Server.nextDimension
  agree
macro_rules | `(tactic| agree_lib) => `(tactic| apply Server.nextDimension_agree)

theorem Server.select_agree (s : Server) (params : BfvParameters) (firstDimCts : List BfvCipherText) (rgsws : List RgswCt) :
    Agree (Server.select .debug s params firstDimCts rgsws) (Server.select .release s params firstDimCts rgsws) := by
  unfold Server.select
  agree
macro_rules | `(tactic| agree_lib) => `(tactic| apply Server.select_agree)

theorem Server.decodeBy_agree {d d' : Res Nat} {u u' : BfvCipherText → Res (List BfvCipherText)} (hd : Agree d d')
    (hu : ∀ c, Agree (u c) (u' c)) (s : Server) (queryCts : List BfvCipherText) (evalKey : Evaluation) (params : BfvParameters) :
    Agree (decodeBy .debug d u s queryCts evalKey params) (decodeBy .release d' u' s queryCts evalKey params) := by
  unfold decodeBy
  agree
  all_goals apply hu
macro_rules | `(tactic| agree_lib) => `(tactic| refine Server.decodeBy_agree ?_ (fun _ => ?_) _ _ _ _)

theorem Server.decode_agree (s : Server) (queryCts : List BfvCipherText) (evalKey : Evaluation) (params : BfvParameters) :
    Agree (Server.decode .debug s queryCts evalKey params) (Server.decode .release s queryCts evalKey params) := by
  unfold Server.decode
  agree
macro_rules | `(tactic| agree_lib) => `(tactic| apply Server.decode_agree)

theorem Server.decodeWith_agree (xPows : List Poly) (s : Server) (queryCts : List BfvCipherText) (evalKey : Evaluation) (params : BfvParameters) :
    Agree (Server.decodeWith .debug xPows s queryCts evalKey params) (Server.decodeWith .release xPows s queryCts evalKey params) := by
  unfold Server.decodeWith
  agree
macro_rules | `(tactic| agree_lib) => `(tactic| apply Server.decodeWith_agree)

theorem Pvw.dotStep_agree (q : Modulus) (sk : PvwSk) (l : Nat) (a : List Nat) (sum : Nat) (i : Nat) :
    Agree (Pvw.dotStep .debug q sk l a sum i) (Pvw.dotStep .release q sk l a sum i) := by
  unfold Pvw.dotStep
  agree
macro_rules | `(tactic| agree_lib) => `(tactic| apply Pvw.dotStep_agree)

theorem Pvw.dot_agree (q : Modulus) (n : Nat) (sk : PvwSk) (l : Nat) (a : List Nat) :
    Agree (Pvw.dot .debug q n sk l a) (Pvw.dot .release q n sk l a) := by
  unfold Pvw.dot
  agree
macro_rules | `(tactic| agree_lib) => `(tactic| apply Pvw.dot_agree)

theorem Pvw.pkEntry_agree (q : Modulus) (n : Nat) (sk : PvwSk) (l : Nat) (a : List (List Nat)) (err : List Nat) (m : Nat) :
    Agree (Pvw.pkEntry .debug q n sk l a err m) (Pvw.pkEntry .release q n sk l a err m) := by
  unfold Pvw.pkEntry
  agree
macro_rules | `(tactic| agree_lib) => `(tactic| apply Pvw.pkEntry_agree)

theorem Pvw.pkColumn_agree (params : PvwParams) (q : Modulus) (sk : PvwSk) (a : List (List Nat)) (rng : Nat → Nat → Nat) (l : Nat) :
    Agree (Pvw.pkColumn .debug params q sk a rng l) (Pvw.pkColumn .release params q sk a rng l) := by
  unfold Pvw.pkColumn
  agree
macro_rules | `(tactic| agree_lib) => `(tactic| apply Pvw.pkColumn_agree)

theorem Pvw.genPk_agree (sk : PvwSk) (params : PvwParams) (aTape : Nat → Nat → Nat) (rng : Nat → Nat → Nat) :
    Agree (Pvw.genPk .debug sk params aTape rng) (Pvw.genPk .release sk params aTape rng) := by
  unfold Pvw.genPk
  agree
macro_rules | `(tactic| agree_lib) => `(tactic| apply Pvw.genPk_agree)

theorem Pvw.decryptStep_agree (params : PvwParams) (q : Modulus) (sk : PvwSk) (a : List Nat) (b : List Nat) (l : Nat) :
    Agree (Pvw.decryptStep .debug params q sk a b l) (Pvw.decryptStep .release params q sk a b l) := by
  unfold Pvw.decryptStep
  agree
macro_rules | `(tactic| agree_lib) => `(tactic| apply Pvw.decryptStep_agree)

theorem Pvw.round_agree (q : Nat) (v : Nat) :
    Agree (Pvw.round .debug q v) (Pvw.round .release q v) := by
  unfold Pvw.round
  agree
macro_rules | `(tactic| agree_lib) => `(tactic| apply Pvw.round_agree)

theorem Pvw.decrypt_agree (sk : PvwSk) (params : PvwParams) (ct : PvwCiphertext) :
    Agree (Pvw.decrypt .debug sk params ct) (Pvw.decrypt .release sk params ct) := by
  unfold Pvw.decrypt
  agree
macro_rules | `(tactic| agree_lib) => `(tactic| apply Pvw.decrypt_agree)

theorem Pvw.accStep_agree (q : Modulus) (pk : PvwPk) (comp : PvwCiphertext → List Nat) (m : Nat) (e : Nat) (acc : List Nat) (i : Nat) :
    Agree (Pvw.accStep .debug q pk comp m e acc i) (Pvw.accStep .release q pk comp m e acc i) := by
  unfold Pvw.accStep
  agree
macro_rules | `(tactic| agree_lib) => `(tactic| apply Pvw.accStep_agree)

theorem Pvw.encryptStep_agree (params : PvwParams) (q : Modulus) (pk : PvwPk) (e : Nat → Nat) (st : List Nat × List Nat) (m : Nat) :
    Agree (Pvw.encryptStep .debug params q pk e st m) (Pvw.encryptStep .release params q pk e st m) := by
  unfold Pvw.encryptStep
  agree
macro_rules | `(tactic| agree_lib) => `(tactic| apply Pvw.encryptStep_agree)

theorem Pvw.addMessage_agree (params : PvwParams) (q : Modulus) (v : Nat) (mv : Nat) :
    Agree (Pvw.addMessage .debug params q v mv) (Pvw.addMessage .release params q v mv) := by
  unfold Pvw.addMessage
  agree
macro_rules | `(tactic| agree_lib) => `(tactic| apply Pvw.addMessage_agree)

theorem Pvw.encrypt_agree (pk : PvwPk) (params : PvwParams) (msg : List Nat) (e : Nat → Nat) :
    Agree (Pvw.encrypt .debug pk params msg e) (Pvw.encrypt .release pk params msg e) := by
  unfold Pvw.encrypt
  agree
macro_rules | `(tactic| agree_lib) => `(tactic| apply Pvw.encrypt_agree)

theorem Omr.ipStep_agree (cts : List BfvCipherText) (polys : List Poly) (product : BfvCipherText) (i : Nat) :
    Agree (Omr.ipStep .debug cts polys product i) (Omr.ipStep .release cts polys product i) := by
  unfold Omr.ipStep
  agree
macro_rules | `(tactic| agree_lib) => `(tactic| apply Omr.ipStep_agree)

theorem Omr.innerProduct_agree (cts : List BfvCipherText) (polys : List Poly) :
    Agree (Omr.innerProduct .debug cts polys) (Omr.innerProduct .release cts polys) := by
  unfold Omr.innerProduct
  agree
macro_rules | `(tactic| agree_lib) => `(tactic| apply Omr.innerProduct_agree)

theorem Omr.encodeComponent_agree (op : NttOperator) (D : Nat) (comp : PvwCiphertext → List Nat) (clues : List PvwCiphertext) (k : Nat) :
    Agree (Omr.encodeComponent .debug op D comp clues k) (Omr.encodeComponent .release op D comp clues k) := by
  unfold Omr.encodeComponent
  agree
macro_rules | `(tactic| agree_lib) => `(tactic| apply Omr.encodeComponent_agree)

theorem Omr.process_agree (sample : Nat → Nat → Nat) (params : PvwParams) (D : Nat) (clues : List PvwCiphertext) :
    Agree (Omr.process .debug sample params D clues) (Omr.process .release sample params D clues) := by
  unfold Omr.process
  agree
macro_rules | `(tactic| agree_lib) => `(tactic| apply Omr.process_agree)

theorem Tests.encryptDecrypt_agree (P : BfvParameters) (skRng : Nat → Nat) (vals : List Nat) (a0 : Nat → Nat → Nat) (a1 : Nat → Nat → Nat) (r0 : Nat → Nat) (r1 : Nat → Nat) :
    Agree (Tests.encryptDecrypt .debug P skRng vals a0 a1 r0 r1) (Tests.encryptDecrypt .release P skRng vals a0 a1 r0 r1) := by
  unfold Tests.encryptDecrypt
  agree
macro_rules | `(tactic| agree_lib) => `(tactic| apply Tests.encryptDecrypt_agree)

theorem Tests.mulOp_agree (P : BfvParameters) (skRng : Nat → Nat) (p1 : List Nat) (p2 : List Nat) (a0 : Nat → Nat → Nat) (a1 : Nat → Nat → Nat) (r0 : Nat → Nat) (r1 : Nat → Nat) (aRlk : Nat → Nat → Nat → Nat) (rRlk : Nat → Nat → Nat) :
    Agree (Tests.mulOp .debug P skRng p1 p2 a0 a1 r0 r1 aRlk rRlk) (Tests.mulOp .release P skRng p1 p2 a0 a1 r0 r1 aRlk rRlk) := by
  unfold Tests.mulOp
  agree
macro_rules | `(tactic| agree_lib) => `(tactic| apply Tests.mulOp_agree)

theorem Tests.galoisKey_agree (sample : Nat → Nat → Nat) (P : BfvParameters) (bd : BitDecomposition) (e : Nat) (skRng : Nat → Nat) (aGk : Nat → Nat → Nat → Nat) (rGk : Nat → Nat → Nat) (v : List Nat) (a : Nat → Nat → Nat) (r : Nat → Nat) :
    Agree (Tests.galoisKey .debug sample P bd e skRng aGk rGk v a r) (Tests.galoisKey .release sample P bd e skRng aGk rGk v a r) := by
  unfold Tests.galoisKey
  agree
macro_rules | `(tactic| agree_lib) => `(tactic| apply Tests.galoisKey_agree)

theorem Tests.kskWithPt_agree (P : BfvParameters) (skRng : Nat → Nat) (v : List Nat) (f : List Nat) (aTape : Nat → Nat → Nat → Nat) (rng : Nat → Nat → Nat) :
    Agree (Tests.kskWithPt .debug P skRng v f aTape rng) (Tests.kskWithPt .release P skRng v f aTape rng) := by
  unfold Tests.kskWithPt
  agree
macro_rules | `(tactic| agree_lib) => `(tactic| apply Tests.kskWithPt_agree)

theorem Tests.ksk_agree (P : BfvParameters) (limit : Nat) (skRng : Nat → Nat) (fromTape : Nat → Nat → Nat) (aTape : Nat → Nat → Nat → Nat) (rng : Nat → Nat → Nat) (inputTape : Nat → Nat → Nat) :
    Agree (Tests.ksk .debug P limit skRng fromTape aTape rng inputTape) (Tests.ksk .release P limit skRng fromTape aTape rng inputTape) := by
  unfold Tests.ksk
  agree
macro_rules | `(tactic| agree_lib) => `(tactic| apply Tests.ksk_agree)

theorem Tests.externalProduct_agree (sample : Nat → Nat → Nat) (P : BfvParameters) (bd : BitDecomposition) (skRng : Nat → Nat) (v1 : List Nat) (v2 : List Nat) (a : Nat → Nat → Nat) (r : Nat → Nat) (a0 : Nat → Nat → Nat → Nat) (a1 : Nat → Nat → Nat → Nat) (r0 : Nat → Nat → Nat) (r1 : Nat → Nat → Nat) :
    Agree (Tests.externalProduct .debug sample P bd skRng v1 v2 a r a0 a1 r0 r1) (Tests.externalProduct .release sample P bd skRng v1 v2 a r a0 a1 r0 r1) := by
  unfold Tests.externalProduct
  agree
macro_rules | `(tactic| agree_lib) => `(tactic| apply Tests.externalProduct_agree)

theorem Tests.changeRepresentation_agree (rq : RqContext) (tape : Nat → Nat → Nat) :
    Agree (Tests.changeRepresentation .debug rq tape) (Tests.changeRepresentation .release rq tape) := by
  unfold Tests.changeRepresentation
  agree
macro_rules | `(tactic| agree_lib) => `(tactic| apply Tests.changeRepresentation_agree)

theorem Tests.modSwitchLoop_agree (fuel : Nat) (current : RqContext) (poly : Poly) (last : List Nat) :
    Agree (modSwitchLoop .debug fuel current poly last) (modSwitchLoop .release fuel current poly last) := by
  induction fuel generalizing current poly last with
  | zero => exact .refl _
  | succ fuel ih =>
    unfold modSwitchLoop
    agree
    all_goals apply ih
macro_rules | `(tactic| agree_lib) => `(tactic| apply Tests.modSwitchLoop_agree)

theorem Tests.modSwitch_agree (ctx : RqContext) (tape : Nat → Nat → Nat) :
    Agree (Tests.modSwitch .debug ctx tape) (Tests.modSwitch .release ctx tape) := by
  unfold Tests.modSwitch
  agree
macro_rules | `(tactic| agree_lib) => `(tactic| apply Tests.modSwitch_agree)

theorem Tests.bijection_agree (sample : Nat → Nat) (q : Nat) (n : Nat) (poly : List Nat) :
    Agree (Tests.bijection .debug sample q n poly) (Tests.bijection .release sample q n poly) := by
  unfold Tests.bijection
  agree
macro_rules | `(tactic| agree_lib) => `(tactic| apply Tests.bijection_agree)

theorem Tests.decomposeBits_agree (value : Nat) :
    Agree (Tests.decomposeBits .debug value) (Tests.decomposeBits .release value) := by
  unfold Tests.decomposeBits
  agree
macro_rules | `(tactic| agree_lib) => `(tactic| apply Tests.decomposeBits_agree)

theorem Tests.bitVector_agree (m : Nat) :
    Agree (Tests.bitVector .debug m) (Tests.bitVector .release m) := by
  unfold Tests.bitVector
  agree
macro_rules | `(tactic| agree_lib) => `(tactic| apply Tests.bitVector_agree)

theorem Tests.pvwEncryptDecrypt_agree (params : PvwParams) (skTape : Nat → Nat → Nat) (aTape : Nat → Nat → Nat) (rng : Nat → Nat → Nat) (e : Nat → Nat) (m : List Nat) :
    Agree (Tests.pvwEncryptDecrypt .debug params skTape aTape rng e m) (Tests.pvwEncryptDecrypt .release params skTape aTape rng e m) := by
  unfold Tests.pvwEncryptDecrypt
  agree
macro_rules | `(tactic| agree_lib) => `(tactic| apply Tests.pvwEncryptDecrypt_agree)

theorem Tests.clientEncode_agree (P : BfvParameters) (skRng0 : Nat → Nat) (skRng : Nat → Nat) (dims : List Nat) (rows : Nat) (aTape : Nat → Nat → Nat → Nat → Nat) (rng : Nat → Nat → Nat → Nat) (a0 : Nat → Nat → Nat → Nat) (a1 : Nat → Nat → Nat → Nat) (r0 : Nat → Nat → Nat) (r1 : Nat → Nat → Nat) (a : Nat → Nat → Nat) (r : Nat → Nat) :
    Agree (Tests.clientEncode .debug P skRng0 skRng dims rows aTape rng a0 a1 r0 r1 a r) (Tests.clientEncode .release P skRng0 skRng dims rows aTape rng a0 a1 r0 r1 a r) := by
  unfold Tests.clientEncode
  agree
macro_rules | `(tactic| agree_lib) => `(tactic| apply Tests.clientEncode_agree)

theorem Tests.unpack_agree (P : BfvParameters) (skRng : Nat → Nat) (values : List Nat) (aTape : Nat → Nat → Nat → Nat → Nat) (rng : Nat → Nat → Nat → Nat) (a0 : Nat → Nat → Nat → Nat) (a1 : Nat → Nat → Nat → Nat) (r0 : Nat → Nat → Nat) (r1 : Nat → Nat → Nat) (a : Nat → Nat → Nat) (r : Nat → Nat) :
    Agree (Tests.unpack .debug P skRng values aTape rng a0 a1 r0 r1 a r) (Tests.unpack .release P skRng values aTape rng a0 a1 r0 r1 a r) := by
  unfold Tests.unpack
  agree
macro_rules | `(tactic| agree_lib) => `(tactic| apply Tests.unpack_agree)

theorem Tests.unpackDecomp_agree (P : BfvParameters) (skRng : Nat → Nat) (values : List Nat) (g0 : Nat) (aTape : Nat → Nat → Nat → Nat → Nat) (rng : Nat → Nat → Nat → Nat) (a0 : Nat → Nat → Nat → Nat) (a1 : Nat → Nat → Nat → Nat) (r0 : Nat → Nat → Nat) (r1 : Nat → Nat → Nat) (a : Nat → Nat → Nat) (r : Nat → Nat) :
    Agree (Tests.unpackDecomp .debug P skRng values g0 aTape rng a0 a1 r0 r1 a r) (Tests.unpackDecomp .release P skRng values g0 aTape rng a0 a1 r0 r1 a r) := by
  unfold Tests.unpackDecomp
  agree
macro_rules | `(tactic| agree_lib) => `(tactic| apply Tests.unpackDecomp_agree)

theorem Tests.garnerCts_agree (ctx : RqContext) (sk : SecretKey) (q : Poly) (a : Nat → Nat → Nat → Nat) (r : Nat → Nat → Nat) :
    Agree (Tests.garnerCts .debug ctx sk q a r) (Tests.garnerCts .release ctx sk q a r) := by
  unfold Tests.garnerCts
  agree
macro_rules | `(tactic| agree_lib) => `(tactic| apply Tests.garnerCts_agree)

theorem Tests.packAndConstructRgsw_agree (P : BfvParameters) (skRng : Nat → Nat) (query : List Nat) (aTape : Nat → Nat → Nat → Nat → Nat) (rng : Nat → Nat → Nat → Nat) (a0 : Nat → Nat → Nat → Nat) (a1 : Nat → Nat → Nat → Nat) (r0 : Nat → Nat → Nat) (r1 : Nat → Nat → Nat) (a : Nat → Nat → Nat → Nat) (r : Nat → Nat → Nat) :
    Agree (Tests.packAndConstructRgsw .debug P skRng query aTape rng a0 a1 r0 r1 a r) (Tests.packAndConstructRgsw .release P skRng query aTape rng a0 a1 r0 r1 a r) := by
  unfold Tests.packAndConstructRgsw
  agree
macro_rules | `(tactic| agree_lib) => `(tactic| apply Tests.packAndConstructRgsw_agree)

theorem Tests.queryCts_agree (P : BfvParameters) (sk : SecretKey) (enc : List Nat) (aq : Nat → Nat → Nat) (rq : Nat → Nat) (a : Nat → Nat → Nat → Nat) (r : Nat → Nat → Nat) :
    Agree (Tests.queryCts .debug P sk enc aq rq a r) (Tests.queryCts .release P sk enc aq rq a r) := by
  unfold Tests.queryCts
  agree
macro_rules | `(tactic| agree_lib) => `(tactic| apply Tests.queryCts_agree)

theorem Tests.query_agree (P : BfvParameters) (db : List (List Nat)) (skRng : Nat → Nat) (dims : List Nat) (firstDim : Nat) (dim : Nat) (aTape : Nat → Nat → Nat → Nat → Nat) (rng : Nat → Nat → Nat → Nat) (a0 : Nat → Nat → Nat → Nat) (a1 : Nat → Nat → Nat → Nat) (r0 : Nat → Nat → Nat) (r1 : Nat → Nat → Nat) (aq : Nat → Nat → Nat) (rq : Nat → Nat) (a : Nat → Nat → Nat → Nat) (r : Nat → Nat → Nat) :
    Agree (Tests.query .debug P db skRng dims firstDim dim aTape rng a0 a1 r0 r1 aq rq a r) (Tests.query .release P db skRng dims firstDim dim aTape rng a0 a1 r0 r1 aq rq a r) := by
  unfold Tests.query
  agree
macro_rules | `(tactic| agree_lib) => `(tactic| apply Tests.query_agree)

end OnionPIR
