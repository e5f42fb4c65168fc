import Verif.Model.RepairLeak
import Verif.Proofs.LeakRelease
/-
The functions of Model/RepairLeak: they return what the functions of the code return, and their traces depend on sizes only.
-/
namespace OnionPIR.Repair
open Lk RnsScaler

/-! ### Values -/

/-- If the first returns, the second returns the same. -/
def Le {α : Type} (x y : Res α) : Prop := ∀ a, x = .ok a → y = .ok a

theorem Le.refl {α : Type} (x : Res α) : Le x x := fun _ h => h

theorem Le.bind {α β : Type} {x y : Res α} {f g : α → Res β} (h : Le x y) (hf : ∀ a, x = .ok a → Le (f a) (g a)) : Le (x >>= f) (y >>= g) := by
  intro b hb
  obtain ⟨a, ha, hb⟩ := bind_eq_ok.mp hb
  rw [h a ha, res_ok_bind]
  exact hf a ha b hb

theorem Le.mapR {α β : Type} {f g : α → Res β} (h : ∀ a, Le (f a) (g a)) : ∀ l, Le (mapR f l) (mapR g l)
  | [] => Le.refl _
  | a :: l => (h a).bind fun _ _ => (Le.mapR h l).bind fun _ _ => Le.refl _

theorem xor_ones {x : Nat} (h : x < 2 ^ 64) : x ^^^ (2 ^ 64 - 1) = 2 ^ 64 - 1 - x := by
  apply Nat.eq_of_testBit_eq
  intro i
  rw [show 2 ^ 64 - 1 - x = 2 ^ 64 - (x + 1) by omega, Nat.testBit_two_pow_sub_succ h, Nat.testBit_xor, Nat.testBit_two_pow_sub_one]
  by_cases hi : i < 64
  · simp [hi]
  · have : x.testBit i = false := Nat.testBit_lt_two_pow (lt_of_lt_of_le h (Nat.pow_le_pow_right (by norm_num) (by omega)))
    simp [hi, this]

theorem mask_zero (n : Nat) : mask n 0 = 0 := by
  rw [mask, Nat.sub_zero, Nat.mod_self]

theorem mask_one (n : Nat) : mask n 1 = 2 ^ n - 1 :=
  Nat.mod_eq_of_lt (by have := Nat.two_pow_pos n; omega)

/-- Selection by a mask. -/
theorem select (n x y : Nat) (b : Bool) (hx : x < 2 ^ n) (hy : y < 2 ^ n) :
    (x &&& mask n b.toNat) ||| (y &&& (2 ^ n - 1 - mask n b.toNat)) = if b then x else y := by
  cases b with
  | false =>
    rw [Bool.toNat_false, mask_zero, Nat.and_zero, Nat.zero_or, Nat.sub_zero, Nat.and_two_pow_sub_one_eq_mod, Nat.mod_eq_of_lt hy]
    rfl
  | true =>
    rw [Bool.toNat_true, mask_one, Nat.sub_self, Nat.and_zero, Nat.or_zero, Nat.and_two_pow_sub_one_eq_mod, Nat.mod_eq_of_lt hx]
    rfl

/-- The limbs are words. -/
def Limbs (x : U256) : Prop := x.l0 < 2 ^ 64 ∧ x.l1 < 2 ^ 64 ∧ x.l2 < 2 ^ 64 ∧ x.l3 < 2 ^ 64

theorem limbs_add (x y : U256) : Limbs (x.wrappingAdd y) := by
  simp only [Limbs, U256.wrappingAdd, ovAdd]
  refine ⟨?_, ?_, ?_, ?_⟩ <;> exact Nat.mod_lt _ (by norm_num)

theorem limbs_sub (x y : U256) : Limbs (x.wrappingSub y) := by
  simp only [Limbs, U256.wrappingSub, ovSub]
  refine ⟨?_, ?_, ?_, ?_⟩ <;> exact Nat.mod_lt _ (by norm_num)

theorem msb_le {x : U256} (h : Limbs x) : x.msb = 0 ∨ x.msb = 1 := by
  have : x.msb < 2 := by
    unfold U256.msb
    rw [Nat.shiftRight_eq_div_pow, Nat.div_lt_iff_lt_mul (by norm_num)]
    exact h.2.2.2
  omega

variable (pr : Profile)

theorem addW_ok {pr : Profile} {n a b c : Nat} (h : addW n pr a b = .ok c) : c = (a + b) % 2 ^ n := by
  unfold addW fit at h
  split at h
  · rename_i hlt
    rw [← Except.ok.inj h, Nat.mod_eq_of_lt hlt]
  · cases pr <;> simp at h
    exact h.symm

theorem subW_ok {pr : Profile} {n a b c : Nat} (ha : a < 2 ^ n) (h : subW n pr a b = .ok c) : c = (a + 2 ^ n - b) % 2 ^ n := by
  unfold subW at h
  split at h
  · rename_i hle
    rw [← Except.ok.inj h, show a + 2 ^ n - b = a - b + 2 ^ n by omega, Nat.add_mod_right, Nat.mod_eq_of_lt (by omega)]
  · cases pr <;> simp at h
    exact h.symm

theorem add_sub_one {pr : Profile} {z a c : Nat} (ha : addW 128 pr z 2 = .ok a) (hc : subW 128 pr a 1 = .ok c) : (z + 1) % 2 ^ 128 = c := by
  have ha := addW_ok ha
  have hc := subW_ok (ha ▸ Nat.mod_lt _ (by norm_num)) hc
  omega

theorem roundWL_le {x : U256} (h : Limbs x) {b : Bool} {w : Nat} (hw : roundW pr x = .ok (b, w)) : (roundWL pr x).val = .ok (b.toNat, w) := by
  simp only [roundWL, bind_val, shr126L_val, toU128L_val, pure_val]
  unfold roundW at hw
  rcases msb_le h with hm | hm
  · rw [if_neg (by omega)] at hw
    have e : flip x (mask 64 x.msb) = x := by rw [hm, mask_zero]; simp [flip]
    rw [e]
    obtain ⟨y, hy, hw⟩ := bind_eq_ok.mp hw
    obtain ⟨z, hz, hw⟩ := bind_eq_ok.mp hw
    obtain ⟨u, hu, hw⟩ := bind_eq_ok.mp hw
    obtain ⟨rfl, rfl⟩ := Prod.mk.inj (Except.ok.inj hw)
    rw [hy, res_ok_bind, hz, res_ok_bind, hm]
    obtain ⟨_, -, hu⟩ := bind_eq_ok.mp hu
    obtain ⟨a, ha, hu⟩ := bind_eq_ok.mp hu
    obtain ⟨c, hc, hu⟩ := bind_eq_ok.mp hu
    have e : (z + 1) % 2 ^ 128 = c := add_sub_one ha hc
    rw [e]
    exact congrArg (fun v => Except.ok (0, v)) (Except.ok.inj hu)
  · rw [if_pos (by omega)] at hw
    have e : flip x (mask 64 x.msb) = x.not := by
      rw [hm, mask_one]
      simp only [flip, U256.not, xor_ones h.1, xor_ones h.2.1, xor_ones h.2.2.1, xor_ones h.2.2.2]
    rw [e, hm]
    obtain ⟨y, hy, hw⟩ := bind_eq_ok.mp hw
    obtain ⟨z, hz, hw⟩ := bind_eq_ok.mp hw
    obtain ⟨u, hu, hw⟩ := bind_eq_ok.mp hw
    obtain ⟨rfl, rfl⟩ := Prod.mk.inj (Except.ok.inj hw)
    rw [hy, res_ok_bind, hz, res_ok_bind]
    rw [addW_ok hu]
    rfl

theorem scaleWL_le (s : RnsScaler) (r : List Nat) (v : Nat) {b : Bool} {w : Nat} (hw : scaleW pr s r v = .ok (b, w)) :
    (scaleWL pr s r v).val = .ok (b.toNat, w) := by
  simp only [scaleWL, bind_val, test_val, res_ok_bind, ite_val, sumThetaOmegaL_val, vThetaGammaL_val, pure_val]
  unfold scaleW at hw
  cases h1 : s.scalingFactor.isOne with
  | true =>
    rw [h1, if_pos rfl] at hw
    obtain ⟨rfl, rfl⟩ := Prod.mk.inj (Except.ok.inj hw)
    rfl
  | false =>
    rw [h1] at hw
    simp only [Bool.false_eq_true, if_false, Bool.not_false, if_true] at hw ⊢
    obtain ⟨x, hx, hw⟩ := bind_eq_ok.mp hw
    obtain ⟨y, hy, hw⟩ := bind_eq_ok.mp hw
    rw [hx, res_ok_bind, hy, res_ok_bind]
    refine roundWL_le pr ?_ hw
    split
    · exact limbs_add _ _
    · exact limbs_sub _ _

theorem signedW_le (q : Modulus) (b : Bool) {w z : Nat} (hw : w < 2 ^ 64) (h : RnsScaler.signedW pr q b w = .ok z) : signedW q b.toNat w = z := by
  unfold RnsScaler.signedW at h
  unfold signedW
  rw [select _ _ _ _ (Nat.mod_lt _ (by norm_num)) hw]
  cases b with
  | false =>
    simp only [Bool.false_eq_true, if_false] at h ⊢
    exact Except.ok.inj h
  | true =>
    simp only [if_true] at h ⊢
    obtain ⟨q2, h2, h⟩ := bind_eq_ok.mp h
    have e : q2 = q.p * 2 % 2 ^ 64 := addW_ok (a := q.p * 2) (b := 0) h2
    rw [Nat.mul_comm 2, ← e]
    exact (subW_ok (e ▸ Nat.mod_lt _ (by norm_num)) h).symm

theorem lazyReduceU128_lt {m : Modulus} {a r : Nat} (h : m.lazyReduceU128 pr a = .ok r) : r < 2 ^ 64 := by
  unfold Modulus.lazyReduceU128 at h
  repeat (obtain ⟨_, -, h⟩ := bind_eq_ok.mp h)
  rw [← Except.ok.inj h]
  exact Nat.mod_lt _ (by norm_num)

theorem addWTermL_le (s : RnsScaler) (q : Modulus) (b : Bool) (w y : Nat) : Le (RnsScaler.addWTerm pr s q b w y) (addWTermL pr s q b.toNat w y).val := by
  simp only [addWTermL, bind_val, test_val, res_ok_bind, ite_val, Modulus.lazyReduceU128L_val, add_val, pure_val]
  unfold RnsScaler.addWTerm
  cases s.scalingFactor.isOne with
  | true => exact Le.refl _
  | false =>
    simp only [Bool.false_eq_true, if_false, Bool.not_false, if_true]
    refine (Le.refl _).bind fun wi hwi z hz => ?_
    obtain ⟨u, hu, hz⟩ := bind_eq_ok.mp hz
    rw [signedW_le pr q b (lazyReduceU128_lt pr hwi) hu]
    exact hz

theorem scaleOutL_le (s : RnsScaler) (r : List Nat) (v : Nat) (b : Bool) (w j : Nat) : Le (scaleOut pr s r v b w j) (scaleOutL pr s r v b.toNat w j).val := by
  simp only [scaleOutL, scaleOut, bind_val, idx_val, Modulus.reduceU128L_val, Modulus.lazyMulShoupL_val, mul_val, sub_val, addOmegaL_val]
  repeat refine (Le.refl _).bind fun _ _ => ?_
  exact (addWTermL_le pr s _ b w _).bind fun _ _ => Le.refl _

theorem scaleL_le (s : RnsScaler) (r : List Nat) (n i : Nat) : Le (s.scale pr r n i) (scaleL pr s r n i).val := by
  simp only [scaleL, RnsScaler.scale, bind_val, dassert_val, scaleVL_val, map_val]
  refine (Le.refl _).bind fun _ _ => (Le.refl _).bind fun _ _ => (Le.refl _).bind fun _ _ => (Le.refl _).bind fun v _ z hz => ?_
  obtain ⟨⟨b, w⟩, hw, hz⟩ := bind_eq_ok.mp hz
  rw [scaleWL_le pr s r v hw, res_ok_bind]
  exact Le.mapR (fun j => scaleOutL_le pr s r v b w _) _ z hz

theorem scalePolyL_le (s : RqScaler) (p : Poly) : Le (s.scale pr p) (scalePolyL pr s p).val := by
  have hc : ∀ p, Le (s.scaleColumns pr p) (scaleColumnsL pr s p).val := by
    intro p
    simp only [scaleColumnsL, RqScaler.scaleColumns, bind_val, test_val, res_ok_bind, ite_val, map_val, pure_val, decide_eq_true_eq]
    split
    · exact Le.mapR (fun j => (Le.refl _).bind fun _ _ => scaleL_le pr _ _ _ _) _
    · exact Le.refl _
  have hp : ∀ p, Le (s.scalePower pr p) (scalePowerL pr s p).val := by
    intro p
    simp only [scalePowerL, RqScaler.scalePower, bind_val, lift_val, pure_val]
    exact (hc p).bind fun _ _ => Le.refl _
  simp only [scalePolyL, RqScaler.scale, bind_val, rassert_val, test_val, res_ok_bind, ite_val, Poly.changeRepresentationL_val, decide_eq_true_eq]
  refine (Le.refl _).bind fun _ _ => ?_
  split <;> rename_i hr
  · rw [if_neg (not_not.mpr hr)]
    exact hp p
  · exact (Le.refl _).bind fun _ _ => (hp _).bind fun _ _ => Le.refl _

theorem decryptL_le (sk : SecretKey) (ct : BfvCipherText) : Le (sk.decrypt pr ct) (decryptL pr sk ct).val := by
  rw [← SecretKey.decryptL_val]
  simp only [decryptL, SecretKey.decryptL, bind_val, RqScaler.scaleL_val]
  exact (Le.refl _).bind fun _ _ => (Le.refl _).bind fun _ _ => (Le.refl _).bind fun sc _ => (scalePolyL_le pr sc _).bind fun _ _ => Le.refl _

/-! ### Traces -/

theorem roundWL_sim (x y : U256) : Sim (fun _ _ => True) (roundWL .release x) (roundWL .release y) := by
  unfold roundWL
  refine Sim.bind (R := fun _ _ => True) (fun _ _ _ _ => ⟨rfl, trivial⟩) fun _ _ _ => ?_
  exact (Sim.silent (toU128L_silent _) (toU128L_silent _)).bind fun _ _ _ => Sim.pure trivial

theorem scaleWL_sim (s : RnsScaler) {r r' : List Nat} (h : SameLen r r') (v v' : Nat) :
    Sim (fun _ _ => True) (scaleWL .release s r v) (scaleWL .release s r' v') := by
  refine (Sim.test _).bind fun b b' hb => ?_
  obtain ⟨rfl, rfl⟩ := hb
  refine Sim.ite (fun _ => ?_) fun _ => Sim.pure trivial
  refine (sumThetaOmegaL_sim _ _ _ h _ _).bind fun _ _ _ => (Sim.silent (vThetaGammaL_silent _ _ _) (vThetaGammaL_silent _ _ _)).bind fun _ _ _ =>
    (Sim.test _).bind fun _ _ _ => roundWL_sim _ _

theorem scaleOutL_sim (s : RnsScaler) {r r' : List Nat} (h : SameLen r r') (v v' b b' w w' j : Nat) :
    Sim (fun _ _ => True) (scaleOutL .release s r v b w j) (scaleOutL .release s r' v' b' w' j) := by
  refine (Sim.idx_same _ _).bind fun q q' hq => (Sim.idx_same _ _).bind fun om om' ho => (Sim.idx_same _ _).bind fun os os' hos =>
    (Sim.idx_same _ _).bind fun ga ga' hg => (Sim.idx_same _ _).bind fun gs gs' hgs => ?_
  subst hq ho hos hg hgs
  refine (Sim.silent (Modulus.reduceU128L_silent _ _) (Modulus.reduceU128L_silent _ _)).bind fun _ _ _ =>
    (Sim.silent (Modulus.lazyMulShoupL_silent _ _ _ _) (Modulus.lazyMulShoupL_silent _ _ _ _)).bind fun _ _ _ => (Sim.silent rfl rfl).bind fun _ _ _ =>
    (Sim.silent rfl rfl).bind fun _ _ _ => Sim.bind (R := fun _ _ => True) ?_ fun _ _ _ =>
    (addOmegaL_sim _ _ _ _ _ _ h).bind fun _ _ _ => Sim.silent (Modulus.reduceU128L_silent _ _) (Modulus.reduceU128L_silent _ _)
  refine (Sim.test _).bind fun b b' hb => ?_
  obtain ⟨rfl, rfl⟩ := hb
  refine Sim.ite (fun _ => ?_) fun _ => Sim.pure trivial
  exact (Sim.silent (Modulus.lazyReduceU128L_silent _ _) (Modulus.lazyReduceU128L_silent _ _)).bind fun _ _ _ => Sim.silent rfl rfl

theorem scaleL_sim (s : RnsScaler) {r r' : List Nat} (h : SameLen r r') (n i : Nat) : Sim SameLen (scaleL .release s r n i) (scaleL .release s r' n i) := by
  refine (Sim.silent rfl rfl).bind fun _ _ _ => (Sim.silent rfl rfl).bind fun _ _ _ => (Sim.silent rfl rfl).bind fun _ _ _ =>
    (scaleVL_sim s h).bind fun v v' _ => (scaleWL_sim s h v v').bind fun w w' _ => ?_
  refine (Sim.map (R := fun _ _ => True) (forall₂_eq _) fun a b hab => ?_).mono fun x y hxy => hxy.length_eq
  subst hab; exact scaleOutL_sim s h _ _ _ _ _ _ _

theorem scalePolyL_sim (s : RqScaler) {p q : Poly} (h : p.Like q) : Sim Poly.Like (scalePolyL .release s p) (scalePolyL .release s q) := by
  have hc : ∀ {p q : Poly}, p.Like q → Sim (List.Forall₂ SameLen) (scaleColumnsL .release s p) (scaleColumnsL .release s q) := by
    intro p q h
    refine (Sim.test _).bind fun b b' hb => ?_
    obtain ⟨rfl, rfl⟩ := hb
    refine Sim.ite (fun _ => ?_) fun _ => Sim.pure .nil
    refine Sim.map (forall₂_eq _) fun i j hij => ?_
    subst hij
    refine Sim.bind (R := fun a b => p.column i = .ok a ∧ q.column i = .ok b) (fun a b ha hb => ⟨rfl, ha, hb⟩) fun a b hab => scaleL_sim _ ?_ _ _
    rw [SameLen, RqScaler.column_len hab.1, RqScaler.column_len hab.2]; exact h.2.2.length_eq
  have hp : ∀ {p q : Poly}, p.Like q → Sim Poly.Like (scalePowerL .release s p) (scalePowerL .release s q) := fun h =>
    (hc h).bind fun _ _ hcd => (RqScaler.rowsL_sim s h hcd).bind fun _ _ h => Sim.pure ⟨rfl, rfl, h⟩
  unfold scalePolyL
  rw [h.1, h.2.1]
  refine (Sim.rassert Iff.rfl).bind fun _ _ _ => (Sim.test _).bind fun b b' hb => ?_
  obtain ⟨rfl, rfl⟩ := hb
  refine Sim.ite (fun _ => ?_) fun _ => hp h
  exact (Poly.changeRepresentationL_sim h _).bind fun _ _ h => (hp h).bind fun _ _ h => Poly.changeRepresentationL_sim h _

theorem decryptL_sim {sk sk' : SecretKey} (hP : sk.params = sk'.params) (h : SameLen sk.coeffs sk'.coeffs) {ct ct' : BfvCipherText}
    (hl : ct.level = ct'.level) (hc : List.Forall₂ Poly.Like ct.cts ct'.cts) :
    Sim (fun a b => SameLen a.values b.values) (decryptL .release sk ct) (decryptL .release sk' ct') := by
  unfold decryptL
  rw [hP, hl]
  refine (SecretKey.phaseL_sim h hc).bind fun m m' hm => (Poly.changeRepresentationL_sim hm .powerBasis).bind fun n n' hn => (Sim.idx_same _ _).bind fun sc sc' hsc => ?_
  subst hsc
  refine (scalePolyL_sim sc hn).bind fun x y hxy => ?_
  refine (Sim.lift (R := SameLen) fun a b ha hb => forall₂_idx hxy.2.2 ha hb).bind fun r r' hr => ?_
  refine (Modulus.map_sim (fun _ => rfl) hr).bind fun r r' hr => ?_
  refine (Sim.lift (R := SameLen) fun a b ha hb => ?_).bind fun r r' hr => (Sim.idx_same _ _).bind fun ctx ctx' hctx => ?_
  · unfold takeR at ha hb
    split at ha
    · split at hb
      · cases ha; cases hb
        simp only [SameLen, List.length_take] at hr ⊢
        rw [hr]
      · simp at hb
    · simp at ha
  subst hctx
  refine (Sim.lift (R := fun a b => a = b) fun a b ha hb => Except.ok.inj (ha.symm.trans hb)).bind fun q q' hq => ?_
  subst hq
  refine (Modulus.map_sim (Modulus.reduceL_silent _) hr).bind fun r r' hr => (Sim.lift (R := fun a b => a = b) fun a b ha hb => Except.ok.inj (ha.symm.trans hb)).bind fun q q' hq => ?_
  subst hq
  exact (Modulus.map_sim (Modulus.reduceL_silent _) hr).bind fun r r' hr => Sim.pure hr

end OnionPIR.Repair
