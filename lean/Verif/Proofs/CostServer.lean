import Verif.Proofs.Cost
import Verif.Proofs.SelectAny
import Verif.Proofs.RnsScaler
import Verif.Proofs.BfvParams
import Mathlib.Algebra.BigOperators.Intervals
/-
The work of the functions of Model/Cost, for operands of given sizes.
-/
namespace OnionPIR
open Cw

theorem zipMutM_map_eq {α β γ : Type} {f : α → β → Res α} (g : α → γ) (hf : ∀ a b x, f a b = .ok x → g x = g a) :
    ∀ {as : List α} {bs : List β} {r : List α}, zipMutM f as bs = .ok r → r.map g = as.map g
  | [], _, r, h => by
    simp only [zipMutM] at h
    rw [← Except.ok.inj h]
  | a :: as, [], r, h => by
    simp only [zipMutM] at h
    rw [← Except.ok.inj h]
  | a :: as, b :: bs, r, h => by
    simp only [zipMutM] at h
    obtain ⟨x, h1, h⟩ := bind_eq_ok.mp h
    obtain ⟨r', h2, h⟩ := bind_eq_ok.mp h
    rw [← Except.ok.inj h, List.map_cons, List.map_cons, hf _ _ _ h1, zipMutM_map_eq g hf h2]

theorem zip3MutM_map_eq {α β γ δ : Type} {f : α → β → γ → Res α} (g : α → δ) (hf : ∀ a b c x, f a b c = .ok x → g x = g a) :
    ∀ {as : List α} {bs : List β} {cs : List γ} {r : List α}, zip3MutM f as bs cs = .ok r → r.map g = as.map g
  | [], _, _, r, h => by
    simp only [zip3MutM] at h
    rw [← Except.ok.inj h]
  | a :: as, [], _, r, h => by
    simp only [zip3MutM] at h
    rw [← Except.ok.inj h]
  | a :: as, b :: bs, [], r, h => by
    simp only [zip3MutM] at h
    rw [← Except.ok.inj h]
  | a :: as, b :: bs, c :: cs, r, h => by
    simp only [zip3MutM] at h
    obtain ⟨x, h1, h⟩ := bind_eq_ok.mp h
    obtain ⟨r', h2, h⟩ := bind_eq_ok.mp h
    rw [← Except.ok.inj h, List.map_cons, List.map_cons, hf _ _ _ _ h1, zip3MutM_map_eq g hf h2]

theorem zipMutM_length {α β : Type} {f : α → β → Res α} {as : List α} {bs : List β} {r : List α} (h : zipMutM f as bs = .ok r) : r.length = as.length := by
  simpa using congrArg List.length (zipMutM_map_eq (fun _ => ()) (fun _ _ _ _ => rfl) h)

namespace NttOperator

theorem updatePairC_costs (a : List Nat) (j l : Nat) (f : Nat → Nat → Res (Nat × Nat)) :
    Costs (updatePairC a j l f) ⟨1, 0⟩ fun r => r.length = a.length :=
  .liftBind fun _ _ => .liftBind fun _ _ => Costs.bindPure (Q := fun _ => True) (fun _ _ => ⟨rfl, trivial⟩) fun r _ => by simp

theorem foldPair_costs {F : Nat → Nat → Nat → Nat → Res (Nat × Nat)} (a : List Nat) (s l : Nat) :
    Costs (Cw.fold (fun a j => updatePairC a (s + j) l (F a.length j)) a (List.range l)) ⟨l, 0⟩ fun r => r.length = a.length := by
  refine (Costs.foldConst (w := ⟨1, 0⟩) (I := fun r : List Nat => r.length = a.length) (fun b j _ hb => ?_) rfl).cast ?_
  · exact (updatePairC_costs _ _ _ _).mono fun r hr => hr.trans hb
  · rw [List.length_range]
    exact Work.ext' (Nat.mul_one l) rfl

theorem forwardBlockC_costs (pr : Profile) (op : NttOperator) {l : Nat} (hl : l ≠ 0) (i w ws : Nat) (a : List Nat) :
    Costs (op.forwardBlockC pr l i w ws a) ⟨l, 0⟩ fun r => r.length = a.length := by
  unfold forwardBlockC
  by_cases h : l = 1
  · subst h
    exact updatePairC_costs _ _ _ _
  · simp only [h, if_false]
    exact foldPair_costs (F := fun _ _ x y => op.butterfly pr x y w ws) a (2 * i * l) l

theorem forwardLayerC_costs (pr : Profile) (op : NttOperator) {l : Nat} (hl : l ≠ 0) (m k : Nat) (a : List Nat) :
    Costs (op.forwardLayerC pr l m k a) ⟨m * l, 0⟩ fun r => r.1.length = a.length := by
  refine (Costs.foldConst (w := ⟨l, 0⟩) (I := fun r : List Nat × Nat => r.1.length = a.length) (fun b i _ hb => ?_) rfl).cast ?_
  · exact .liftBind fun _ _ => .liftBind fun _ _ => (forwardBlockC_costs pr op hl i _ _ b.1).bindPure fun r hr => hr.trans hb
  · rw [List.length_range]; rfl

theorem forwardLoopC_costs (pr : Profile) (op : NttOperator) (i : Nat) : ∀ (m k : Nat) (a : List Nat),
    Costs (op.forwardLoopC pr (2 ^ i) m k a) ⟨(i + 1) * (m * 2 ^ i), 0⟩ fun r => r.length = a.length := by
  induction i with
  | zero =>
    intro m k a
    rw [forwardLoopC, dif_neg (by simp)]
    refine Costs.cast ((forwardLayerC_costs pr op (l := 2 ^ 0) (by simp) m k a).bind (w' := 0) (R := fun r : List Nat => r.length = a.length) fun st hst => ?_) ?_
    · rw [forwardLoopC, dif_pos (by rw [Nat.shiftRight_eq_div_pow]; norm_num)]
      exact .pure hst
    · work
  | succ i ih =>
    intro m k a
    rw [forwardLoopC, dif_neg (by positivity)]
    refine Costs.cast ((forwardLayerC_costs pr op (l := 2 ^ (i + 1)) (by positivity) m k a).bind (w' := ⟨(i + 1) * (2 * m * 2 ^ i), 0⟩) (R := fun r : List Nat => r.length = a.length)
      fun st hst => ?_) ?_
    · have e1 : 2 ^ (i + 1) >>> 1 = 2 ^ i := by rw [Nat.shiftRight_eq_div_pow, pow_succ]; omega
      have e2 : m <<< 1 = 2 * m := by rw [Nat.shiftLeft_eq]; omega
      rw [e1, e2]
      exact (ih _ _ _).mono fun r hr => hr.trans hst
    · work

/-- The butterflies of a transform of `2^K` words. -/
theorem forwardC_costs (pr : Profile) {op : NttOperator} {K : Nat} (hs : op.size = 2 ^ K) (a : List Nat) :
    Costs (op.forwardC pr a) ⟨K * 2 ^ (K - 1), 0⟩ fun r => r.length = a.length := by
  refine .liftBind fun _ _ => ?_
  rw [hs]
  cases K with
  | zero =>
    rw [forwardLoopC, dif_pos (by rw [Nat.shiftRight_eq_div_pow]; norm_num)]
    exact Costs.cast (Costs.pure (Q := fun r : List Nat => r.length = a.length) rfl) (by work)
  | succ K =>
    have e1 : 2 ^ (K + 1) >>> 1 = 2 ^ K := by rw [Nat.shiftRight_eq_div_pow, pow_succ]; omega
    rw [e1]
    exact (forwardLoopC_costs pr op K 1 1 a).cast (by rw [Nat.one_mul, Nat.add_sub_cancel])

theorem backwardLayerC_costs (pr : Profile) (op : NttOperator) (l m k : Nat) (a : List Nat) :
    Costs (op.backwardLayerC pr l m k a) ⟨m * l, 0⟩ fun r => r.1.length = a.length := by
  refine (Costs.foldConst (w := ⟨l, 0⟩) (I := fun r : List Nat × Nat => r.1.length = a.length) (fun b i _ hb => ?_) rfl).cast ?_
  · exact .liftBind fun z _ => .liftBind fun zs _ =>
      (foldPair_costs (F := fun _ _ x y => op.butterflyInv pr x y z zs) b.1 (2 * i * l) l).bindPure fun r hr => hr.trans hb
  · rw [List.length_range]; rfl

theorem backwardLoopC_costs (pr : Profile) (op : NttOperator) (i : Nat) : ∀ (l k : Nat) (a : List Nat),
    Costs (op.backwardLoopC pr l (2 ^ i) k a) ⟨(i + 1) * (l * 2 ^ i), 0⟩ fun r => r.length = a.length := by
  induction i with
  | zero =>
    intro l k a
    rw [backwardLoopC, dif_neg (by simp)]
    refine Costs.cast ((backwardLayerC_costs pr op l _ k a).bind (w' := 0) (R := fun r : List Nat => r.length = a.length) fun st hst => ?_) ?_
    · rw [backwardLoopC, dif_pos (by rw [Nat.shiftRight_eq_div_pow]; norm_num)]
      exact .pure hst
    · work
  | succ i ih =>
    intro l k a
    rw [backwardLoopC, dif_neg (by positivity)]
    refine Costs.cast ((backwardLayerC_costs pr op l _ k a).bind (w' := ⟨(i + 1) * (2 * l * 2 ^ i), 0⟩) (R := fun r : List Nat => r.length = a.length)
      fun st hst => ?_) ?_
    · have e1 : 2 ^ (i + 1) >>> 1 = 2 ^ i := by rw [Nat.shiftRight_eq_div_pow, pow_succ]; omega
      have e2 : l <<< 1 = 2 * l := by rw [Nat.shiftLeft_eq]; omega
      rw [e1, e2]
      exact (ih _ _ _).mono fun r hr => hr.trans hst
    · work

theorem backwardC_costs (pr : Profile) {op : NttOperator} {K : Nat} (hs : op.size = 2 ^ K) (a : List Nat) :
    Costs (op.backwardC pr a) ⟨K * 2 ^ (K - 1), 2 ^ K⟩ fun r => r.length = a.length := by
  refine .liftBind fun _ h => ?_
  have hlen : a.length = 2 ^ K := by
    rw [← hs]
    by_contra hc
    rw [rassert_fail hc] at h
    cases h
  rw [hs]
  have scale : ∀ b : List Nat, b.length = a.length →
      Costs (Cw.map (fun x => Cw.product (op.p.mulShoup pr x op.sizeInv op.sizeInvShoup)) b) ⟨0, 2 ^ K⟩ fun r => r.length = a.length := by
    intro b hb
    refine Costs.cast ((Costs.mapConst (w := ⟨0, 1⟩) (Q := fun _ _ => True) fun x _ _ _ => ⟨rfl, trivial⟩).mono fun r hr => ?_) ?_
    · rw [← hr.length_eq, hb]
    · rw [hb, hlen]; exact Work.ext' rfl (Nat.mul_one _)
  cases K with
  | zero =>
    rw [backwardLoopC, dif_pos (by rw [Nat.shiftRight_eq_div_pow]; norm_num)]
    exact Costs.cast ((Costs.pure (Q := fun r : List Nat => r.length = a.length) rfl).bind scale) (by work)
  | succ K =>
    have e1 : 2 ^ (K + 1) >>> 1 = 2 ^ K := by rw [Nat.shiftRight_eq_div_pow, pow_succ]; omega
    rw [e1]
    refine Costs.cast ((backwardLoopC_costs pr op K 1 0 a).bind scale) ?_
    rw [Nat.one_mul, Nat.add_sub_cancel]
    exact Work.ext' rfl (Nat.zero_add _)

end NttOperator

/-- A context with `n` moduli and degree `2^K`. -/
structure RqContext.Dim (K n : Nat) (c : RqContext) : Prop where
  deg : c.degree = 2 ^ K
  mods : c.moduli.length = n
  ops : c.nttOps.length = n
  size : ∀ op ∈ c.nttOps, op.size = 2 ^ K

/-- A polynomial of a context in a given representation, with rows of the right number and lengths. -/
def Poly.Dim (c : RqContext) (r : Representation) (p : Poly) : Prop :=
  p.context = c ∧ p.representation = r ∧ p.coefficients.map List.length = List.replicate c.moduli.length c.degree

/-- All components of a ciphertext are of one context. -/
def BfvCipherText.Dim (c : RqContext) (ct : BfvCipherText) : Prop := ∀ p ∈ ct.cts, p.Dim c .ntt

/-- A key of one context, with a pair of polynomials for every modulus. -/
def Ksk.Dim (c : RqContext) (k : Ksk) : Prop :=
  k.ctContext = c ∧ k.kskContext = c ∧ k.c0.length = c.moduli.length ∧ k.c1.length = c.moduli.length ∧ (∀ p ∈ k.c0, p.Dim c .ntt) ∧ ∀ p ∈ k.c1, p.Dim c .ntt

/-- See `Ksk.Dim`. -/
def RgswCt.Dim (c : RqContext) (g : RgswCt) : Prop := g.ksk0.Dim c ∧ g.ksk1.Dim c

variable {K n : Nat} {c : RqContext} (pr : Profile)

namespace Poly

theorem Dim.len {r : Representation} {p : Poly} (h : p.Dim c r) : p.coefficients.length = c.moduli.length := by
  simpa using congrArg List.length h.2.2

theorem Dim.row {r : Representation} {p : Poly} (h : p.Dim c r) {x : List Nat} (hx : x ∈ p.coefficients) : x.length = c.degree := by
  have : x.length ∈ p.coefficients.map List.length := List.mem_map_of_mem hx
  rw [h.2.2] at this
  exact (List.mem_replicate.mp this).2

theorem zero_dim (c : RqContext) (r : Representation) : (zero c r).Dim c r := ⟨rfl, rfl, by simp [zero]⟩

theorem fromRows_dim {α : Type} {f : Modulus → List α → Res (List Nat)} {a : List α} {p : Poly} (h : fromRows c f a = .ok p) : p.Dim c .powerBasis := by
  unfold fromRows at h
  obtain ⟨r, h1, h2⟩ := bind_eq_ok.mp h
  obtain rfl := Except.ok.inj h2
  refine ⟨rfl, rfl, (zipMutM_map_eq List.length (fun a b x hx => ?_) h1).trans (zero_dim c .powerBasis).2.2⟩
  obtain ⟨v, -, h3⟩ := bind_eq_ok.mp hx
  unfold copyPrefix at h3
  split_ifs at h3 with hle
  rw [← Except.ok.inj h3, List.length_append, List.length_drop]
  omega

theorem add_dim {a b p : Poly} (ha : a.Dim c .ntt) (h : a.add pr b = .ok p) : p.Dim c .ntt := by
  unfold add at h
  obtain ⟨_, -, h⟩ := bind_eq_ok.mp h
  obtain ⟨_, -, h⟩ := bind_eq_ok.mp h
  obtain ⟨r, h1, h⟩ := bind_eq_ok.mp h
  obtain rfl := Except.ok.inj h
  exact ⟨ha.1, ha.2.1, (zip3MutM_map_eq List.length (fun _ _ _ _ hx => zipMutM_length hx) h1).trans ha.2.2⟩

theorem sub_dim {a b p : Poly} (ha : a.Dim c .ntt) (h : a.sub pr b = .ok p) : p.Dim c .ntt := by
  unfold sub at h
  obtain ⟨_, -, h⟩ := bind_eq_ok.mp h
  obtain ⟨_, -, h⟩ := bind_eq_ok.mp h
  obtain ⟨r, h1, h⟩ := bind_eq_ok.mp h
  obtain rfl := Except.ok.inj h
  exact ⟨ha.1, ha.2.1, (zip3MutM_map_eq List.length (fun _ _ _ _ hx => zipMutM_length hx) h1).trans ha.2.2⟩

theorem neg_dim {a p : Poly} {r : Representation} (ha : a.Dim c r) (h : a.neg pr = .ok p) : p.Dim c r := by
  unfold neg at h
  obtain ⟨x, h1, h⟩ := bind_eq_ok.mp h
  obtain rfl := Except.ok.inj h
  have hz := zero_dim a.context a.representation
  refine ⟨ha.1, ha.2.1, (zip3MutM_map_eq List.length (fun t row q x hx => ?_) h1).trans (by rw [hz.2.2, ha.1])⟩
  obtain ⟨v, -, h3⟩ := bind_eq_ok.mp hx
  unfold copyFromSlice at h3
  split_ifs at h3 with hle
  rw [← Except.ok.inj h3, hle]

theorem substRowNtt_length {pb br zs src r : List Nat} (h : substRowNtt pb br zs src = .ok r) : r.length = zs.length := by
  unfold substRowNtt at h
  generalize pb.zip br = l at h
  induction l generalizing zs with
  | nil => exact congrArg List.length (Except.ok.inj h).symm
  | cons a l ih =>
    rw [foldR_cons] at h
    obtain ⟨s, h1, h2⟩ := bind_eq_ok.mp h
    obtain ⟨v, -, h3⟩ := bind_eq_ok.mp h1
    rw [ih h2]
    split_ifs at h3
    rw [← Except.ok.inj h3, List.length_set]

theorem substitute_dim {a p : Poly} {s : Substitution} (ha : a.Dim c .ntt) (h : a.substitute pr s = .ok p) : p.Dim c .ntt := by
  unfold substitute at h
  rw [ha.2.1] at h
  obtain ⟨r, h1, h⟩ := bind_eq_ok.mp h
  obtain rfl := Except.ok.inj h
  exact ⟨ha.1, rfl, (zipMutM_map_eq List.length (fun _ _ _ hx => substRowNtt_length hx) h1).trans (by rw [(zero_dim _ _).2.2, ha.1])⟩

theorem changeRepresentationC_ntt_costs (hc : c.Dim K n) {p : Poly} (hp : p.Dim c .powerBasis) :
    Costs (p.changeRepresentationC pr .ntt) ⟨n * (K * 2 ^ (K - 1)), 0⟩ (Poly.Dim c .ntt) := by
  unfold changeRepresentationC
  rw [hp.2.1]
  refine Costs.cast ((Costs.zipMut List.length fun row _ op hop => NttOperator.forwardC_costs pr (hc.size op (by rw [← hp.1]; exact hop)) row).bindPure
    fun r hr => ⟨hp.1, rfl, hr.trans hp.2.2⟩) ?_
  rw [hp.len, hp.1, hc.mods, hc.ops, Nat.min_self]
  rfl

theorem changeRepresentationC_power_costs (hc : c.Dim K n) {p : Poly} (hp : p.Dim c .ntt) :
    Costs (p.changeRepresentationC pr .powerBasis) ⟨n * (K * 2 ^ (K - 1)), n * 2 ^ K⟩ (Poly.Dim c .powerBasis) := by
  unfold changeRepresentationC
  rw [hp.2.1]
  refine Costs.cast ((Costs.zipMut List.length fun row _ op hop => NttOperator.backwardC_costs pr (hc.size op (by rw [← hp.1]; exact hop)) row).bindPure
    fun r hr => ⟨hp.1, rfl, hr.trans hp.2.2⟩) ?_
  rw [hp.len, hp.1, hc.mods, hc.ops, Nat.min_self]
  rfl

theorem mulC_costs (hc : c.Dim K n) {a b : Poly} (ha : a.Dim c .ntt) (hb : b.Dim c .ntt) : Costs (a.mulC pr b) ⟨0, n * 2 ^ K⟩ (Poly.Dim c .ntt) := by
  refine .liftBind fun _ _ => .liftBind fun _ _ => ?_
  refine Costs.cast ((Costs.zip3Mut (w := ⟨0, 2 ^ K⟩) List.length fun x hx y hy q _ => ?_).bindPure fun r hr => ⟨ha.1, ha.2.1, hr.trans ha.2.2⟩) ?_
  · refine Costs.cast ((Costs.zipMut (w := ⟨0, 1⟩) (fun _ => ()) fun u _ v _ _ _ => ⟨rfl, rfl⟩).mono fun r hr => by
      simpa using congrArg List.length hr) ?_
    rw [ha.row hx, hb.row hy, hc.deg, Nat.min_self]
    exact Work.ext' rfl (Nat.mul_one _)
  · rw [ha.len, hb.len, ha.1, hc.mods, Nat.min_self, Nat.min_self]
    rfl

theorem mulBigC_costs (hc : c.Dim K n) {a : Poly} (ha : a.Dim c .ntt) (b : Nat) :
    Costs (a.mulBigC pr b) ⟨n * (K * 2 ^ (K - 1)), n * 2 ^ K⟩ (Poly.Dim c .ntt) := by
  refine .liftBind fun r hr => ?_
  rw [ha.1] at hr
  refine Costs.cast ((changeRepresentationC_ntt_costs pr hc (fromRows_dim hr)).bind fun x hx => .liftBind fun _ _ => mulC_costs pr hc ha hx) ?_
  work

end Poly

/-- The work of a key switch. -/
def Work.switch (K n : Nat) : Work := ⟨n ^ 2 * (K * 2 ^ (K - 1)), 2 * n ^ 2 * 2 ^ K⟩
/-- The work of an application of a Galois key. -/
def Work.galois (K n : Nat) : Work := ⟨(n ^ 2 + n) * (K * 2 ^ (K - 1)), (2 * n ^ 2 + n) * 2 ^ K⟩
/-- The work of an external product. -/
def Work.external (K n : Nat) : Work := ⟨2 * (n ^ 2 + n) * (K * 2 ^ (K - 1)), 2 * (2 * n ^ 2 + n) * 2 ^ K⟩
/-- The work of one step of the expansion, of which `x` for the transform of the monomial. -/
def Work.step (x : Work) (K n : Nat) : Work := ⟨(n ^ 2 + n) * (K * 2 ^ (K - 1)), (2 * n ^ 2 + 3 * n) * 2 ^ K⟩ + x
/-- The work of the loops of an expansion. -/
def Work.expansion (x : Work) (K n : Nat) : Work := ⟨2 * n * (K * 2 ^ (K - 1)), 2 * n * 2 ^ K⟩ + Work.times (2 ^ K - 1) (Work.step x K n)

theorem Ksk.keySwitchC_costs (hc : c.Dim K n) {k : Ksk} (hk : k.Dim c) {p : Poly} (hp : p.Dim c .powerBasis) :
    Costs (k.keySwitchC pr p) (Work.switch K n) fun r => r.1.Dim c .ntt ∧ r.2.Dim c .ntt := by
  obtain ⟨k1, k2, k3, k4, k5, k6⟩ := hk
  refine .liftBind fun _ _ => .liftBind fun _ _ => ?_
  refine Costs.cast (Costs.foldConst (w := ⟨n * (K * 2 ^ (K - 1)), 2 * (n * 2 ^ K)⟩) (I := fun r : Poly × Poly => r.1.Dim c .ntt ∧ r.2.Dim c .ntt)
    (fun st x hx hst => ?_) ⟨by rw [k1]; exact Poly.zero_dim _ _, by rw [k1]; exact Poly.zero_dim _ _⟩) ?_
  · obtain ⟨x, y, z⟩ := x
    have h1 := List.of_mem_zip hx
    have h2 := List.of_mem_zip h1.2
    refine .liftBind fun d hd => ?_
    rw [k2] at hd
    refine Costs.cast ((Poly.changeRepresentationC_ntt_costs pr hc (Poly.fromRows_dim hd)).bind fun d hd => (Poly.mulC_costs pr hc hd (k5 y h2.1)).bind fun b hb =>
      (Poly.mulC_costs pr hc hd (k6 z h2.2)).bind fun a ha => .liftBind fun r0 h0 => .liftBind fun r1 h1 =>
        .pure ⟨Poly.add_dim pr hst.1 h0, Poly.add_dim pr hst.2 h1⟩) ?_
    work
  · rw [List.length_zip, List.length_zip, hp.len, k3, k4, hc.mods, Nat.min_self, Nat.min_self]
    refine Work.ext' ?_ ?_ <;> simp only [Work.switch, Work.times_butterflies, Work.times_products] <;> ring

theorem GaliosKey.relinearizeC_costs (hc : c.Dim K n) {g : GaliosKey} (hg : g.gk.Dim c) {ct : BfvCipherText} (hct : ct.Dim c) :
    Costs (g.relinearizeC pr ct) (Work.galois K n) (BfvCipherText.Dim c) := by
  refine .liftBind fun _ _ => .liftBind fun c0 h0 => .liftBind fun _ _ => .liftBind fun c1 h1 => .liftBind fun c1r h1r => ?_
  have d0 := hct c0 (List.mem_of_getElem? (idx_eq_ok.mp h0))
  have d1 := Poly.substitute_dim pr (hct c1 (List.mem_of_getElem? (idx_eq_ok.mp h1))) h1r
  refine Costs.cast ((Poly.changeRepresentationC_power_costs pr hc d1).bind fun x hx => (Ksk.keySwitchC_costs pr hc hg hx).bind fun d hd =>
    .liftBind fun c0r h0r => .liftBind fun s hs => .pure fun p hp => ?_) ?_
  · simp only [List.mem_cons, List.not_mem_nil, or_false] at hp
    rcases hp with rfl | rfl
    · exact Poly.add_dim pr hd.1 hs
    · exact hd.2
  · refine Work.ext' ?_ ?_ <;> simp only [Work.switch, Work.galois, Work.add_butterflies, Work.add_products, Work.zero_butterflies, Work.zero_products] <;> ring

theorem RgswCt.externalProductC_costs (hc : c.Dim K n) {g : RgswCt} (hg : g.Dim c) {ct : BfvCipherText} (hct : ct.Dim c) :
    Costs (g.externalProductC pr ct) (Work.external K n) fun r => r.1.Dim c .ntt ∧ r.2.Dim c .ntt := by
  refine .liftBind fun c1 h1 => .liftBind fun c0 h0 => ?_
  have d0 := hct c0 (List.mem_of_getElem? (idx_eq_ok.mp h0))
  have d1 := hct c1 (List.mem_of_getElem? (idx_eq_ok.mp h1))
  refine Costs.cast ((Poly.changeRepresentationC_power_costs pr hc d1).bind fun x hx => (Poly.changeRepresentationC_power_costs pr hc d0).bind fun y hy =>
    (Ksk.keySwitchC_costs pr hc hg.1 hx).bind fun d hd => (Ksk.keySwitchC_costs pr hc hg.2 hy).bind fun e he =>
    .liftBind fun r0 h0 => .liftBind fun r1 h1 => .pure ⟨Poly.add_dim pr he.1 h0, Poly.add_dim pr he.2 h1⟩) ?_
  refine Work.ext' ?_ ?_ <;> simp only [Work.switch, Work.external, Work.add_butterflies, Work.add_products, Work.zero_butterflies, Work.zero_products] <;> ring

namespace BfvCipherText

theorem add_dim {a b r : BfvCipherText} (ha : a.Dim c) (h : a.add pr b = .ok r) : r.Dim c := by
  unfold add at h
  obtain ⟨_, -, h⟩ := bind_eq_ok.mp h
  obtain ⟨_, -, h⟩ := bind_eq_ok.mp h
  obtain ⟨a0, h0, h⟩ := bind_eq_ok.mp h
  obtain ⟨_, -, h⟩ := bind_eq_ok.mp h
  obtain ⟨c0, e0, h⟩ := bind_eq_ok.mp h
  obtain ⟨a1, h1, h⟩ := bind_eq_ok.mp h
  obtain ⟨_, -, h⟩ := bind_eq_ok.mp h
  obtain ⟨c1, e1, h⟩ := bind_eq_ok.mp h
  obtain rfl := Except.ok.inj h
  intro p hp
  simp only [List.mem_cons, List.not_mem_nil, or_false] at hp
  rcases hp with rfl | rfl
  · exact Poly.add_dim pr (ha _ (List.mem_of_getElem? (idx_eq_ok.mp h0))) e0
  · exact Poly.add_dim pr (ha _ (List.mem_of_getElem? (idx_eq_ok.mp h1))) e1

theorem sub_dim {a b r : BfvCipherText} (ha : a.Dim c) (h : a.sub pr b = .ok r) : r.Dim c := by
  unfold sub at h
  obtain ⟨_, -, h⟩ := bind_eq_ok.mp h
  obtain ⟨_, -, h⟩ := bind_eq_ok.mp h
  obtain ⟨a0, h0, h⟩ := bind_eq_ok.mp h
  obtain ⟨_, -, h⟩ := bind_eq_ok.mp h
  obtain ⟨c0, e0, h⟩ := bind_eq_ok.mp h
  obtain ⟨a1, h1, h⟩ := bind_eq_ok.mp h
  obtain ⟨_, -, h⟩ := bind_eq_ok.mp h
  obtain ⟨c1, e1, h⟩ := bind_eq_ok.mp h
  obtain rfl := Except.ok.inj h
  intro p hp
  simp only [List.mem_cons, List.not_mem_nil, or_false] at hp
  rcases hp with rfl | rfl
  · exact Poly.sub_dim pr (ha _ (List.mem_of_getElem? (idx_eq_ok.mp h0))) e0
  · exact Poly.sub_dim pr (ha _ (List.mem_of_getElem? (idx_eq_ok.mp h1))) e1

theorem mulPolyC_costs (hc : c.Dim K n) {a : BfvCipherText} (ha : a.Dim c) {p : Poly} (hp : p.Dim c .ntt) :
    Costs (a.mulPolyC pr p) ⟨0, 2 * n * 2 ^ K⟩ (BfvCipherText.Dim c) := by
  refine .liftBind fun a0 h0 => .liftBind fun _ _ => .liftBind fun _ _ => ?_
  have d0 := ha a0 (List.mem_of_getElem? (idx_eq_ok.mp h0))
  refine Costs.cast ((Poly.mulC_costs pr hc d0 hp).bind fun x hx => .liftBind fun a1 h1 =>
    (Poly.mulC_costs pr hc (ha a1 (List.mem_of_getElem? (idx_eq_ok.mp h1))) hp).bindPure fun y hy q hq => ?_) ?_
  · simp only [List.mem_cons, List.not_mem_nil, or_false] at hq
    rcases hq with rfl | rfl
    · exact hx
    · exact hy
  · work

end BfvCipherText

theorem setR_mem {α : Type} {l r : List α} {i : Nat} {x : α} (h : setR l i x = .ok r) : r.length = l.length ∧ ∀ y ∈ r, y = x ∨ y ∈ l := by
  unfold setR at h
  split_ifs at h with hi
  rw [← Except.ok.inj h]
  refine ⟨List.length_set, fun y hy => ?_⟩
  rcases List.mem_or_eq_of_mem_set hy with h | h
  · exact .inr h
  · exact .inl h

theorem mem_of_mapR {α β : Type} {f : α → Res β} {l : List α} {r : List β} (h : mapR f l = .ok r) {b : β} (hb : b ∈ r) : ∃ a ∈ l, f a = .ok b := by
  obtain ⟨h1, h2⟩ := mapR_eq_ok h
  obtain ⟨i, hi, rfl⟩ := List.mem_iff_getElem.mp hb
  exact ⟨l[i]'(h1 ▸ hi), List.getElem_mem _, h2 i (h1 ▸ hi) hi⟩

theorem forall₂_right {α β : Type} {Q : β → Prop} {l : List α} {r : List β} (h : List.Forall₂ (fun _ b => Q b) l r) : ∀ b ∈ r, Q b := by
  induction h with
  | nil => simp
  | cons h1 _ ih =>
    intro b hb
    rcases List.mem_cons.mp hb with rfl | hb
    · exact h1
    · exact ih b hb

namespace Evaluation

theorem unpackStepC_costs (hc : c.Dim K n) {ev : Evaluation} {e : Nat} (hg : ∀ g, ev.gk.lookup e = some g → g.gk.Dim c) {x : Work} {xs : List Poly}
    (hx : ∀ p ∈ xs, Costs (p.changeRepresentationC pr .ntt) x (Poly.Dim c .ntt)) (i j : Nat) {bits : List BfvCipherText} (hb : ∀ b ∈ bits, b.Dim c) :
    Costs (unpackStepC pr ev xs e i bits j) (Work.step x K n) fun r => ∀ b ∈ r, b.Dim c := by
  refine .liftBind fun ct hct => .liftBind fun g hgl => ?_
  have d := hb ct (List.mem_of_getElem? (idx_eq_ok.mp hct))
  refine Costs.cast ((GaliosKey.relinearizeC_costs pr hc (hg g (unwrapR_eq_ok.mp hgl)) d).bind fun cr hcr => .liftBind fun ce hce => .liftBind fun xp hxp =>
    (hx xp (List.mem_of_getElem? (idx_eq_ok.mp hxp))).bind fun xp hxp => .liftBind fun co hco =>
    .liftBind fun o0 ho0 => (Poly.mulC_costs pr hc (BfvCipherText.sub_dim pr d hco _ (List.mem_of_getElem? (idx_eq_ok.mp ho0))) hxp).bind fun r0 hr0 =>
    .liftBind fun o1 ho1 => (Poly.mulC_costs pr hc (BfvCipherText.sub_dim pr d hco _ (List.mem_of_getElem? (idx_eq_ok.mp ho1))) hxp).bind fun r1 hr1 =>
    .liftBind fun b1 hb1 => .lift fun b2 hb2 b hb' => ?_) ?_
  · rcases (setR_mem hb2).2 b hb' with rfl | h
    · intro p hp
      simp only [List.mem_cons, List.not_mem_nil, or_false] at hp
      rcases hp with rfl | rfl
      · exact hr0
      · exact hr1
    · rcases (setR_mem hb1).2 b h with rfl | h
      · exact BfvCipherText.add_dim pr d hce
      · exact hb b h
  · refine Work.ext' ?_ ?_ <;> simp only [Work.galois, Work.step, Work.add_butterflies, Work.add_products, Work.zero_butterflies, Work.zero_products] <;> ring

theorem sum_pow (K : Nat) : ((List.range K).map fun i => 2 ^ i).sum = 2 ^ K - 1 := by
  induction K with
  | zero => rfl
  | succ K ih =>
    rw [List.range_succ, List.map_append, List.sum_append, ih]
    have : 0 < 2 ^ K := Nat.two_pow_pos K
    simp only [List.map_cons, List.map_nil, List.sum_cons, List.sum_nil, pow_succ]
    omega

theorem unpackWithC_costs (hc : c.Dim K n) (hK : K < 64) {ev : Evaluation} {ct : BfvCipherText} (hdeg : ct.params.degree = 2 ^ K)
    (hg : ∀ i, i < K → ∀ g, ev.gk.lookup (2 ^ K / 2 ^ i + 1) = some g → g.gk.Dim c) {x : Work} {xs : List Poly}
    (hx : ∀ p ∈ xs, Costs (p.changeRepresentationC pr .ntt) x (Poly.Dim c .ntt)) (hlen : ct.cts.length = 2) (hct : ct.Dim c) :
    Costs (unpackWithC pr ev xs ct) (Work.expansion x K n) fun r => ∀ b ∈ r, b.Dim c := by
  refine .liftBind fun ctx _ => .liftBind fun nInv _ => ?_
  refine Costs.cast ((Costs.mapConst fun p hp => Poly.mulBigC_costs pr hc (hct p hp) nInv).bind (w' := Work.times (2 ^ K - 1) (Work.step x K n)) fun ps hps => ?_) ?_
  · refine .liftBind fun lg hlg => ?_
    rw [hdeg] at hlg
    rw [RnsScaler.ilog2_two_pow pr hK] at hlg
    obtain rfl := Except.ok.inj hlg
    rw [hdeg]
    refine Costs.cast ((Costs.fold (w := fun i => Work.times (2 ^ i) (Work.step x K n)) (I := fun r : List BfvCipherText => ∀ b ∈ r, b.Dim c) (fun bits i hi hb => ?_)
      fun b hb => ?_).bind fun r hr => .liftBind fun _ _ => .pure hr) ?_
    · have hi := List.mem_range.mp hi
      have hp : 2 ^ K ≤ 2 ^ 63 := Nat.pow_le_pow_right (by norm_num) (by omega)
      have hle : 2 ^ K / 2 ^ i ≤ 2 ^ K := Nat.div_le_self _ _
      refine .liftBind fun d hd => .liftBind fun e he => ?_
      rw [divR_ok (by positivity)] at hd
      obtain rfl := Except.ok.inj hd
      rw [addW_ok (by omega)] at he
      obtain rfl := Except.ok.inj he
      refine Costs.cast (Costs.foldConst (fun s j _ hs => unpackStepC_costs pr hc (hg i hi) hx i j hs) hb) (by rw [List.length_range])
    · rw [(List.mem_replicate.mp hb).2]
      intro p hp
      exact forall₂_right hps p hp
    · rw [Work.sum_times, sum_pow, Work.add_zero]
  · rw [hlen]
    refine Work.ext' ?_ ?_ <;> simp only [Work.expansion, Work.step, Work.times_butterflies, Work.times_products, Work.add_butterflies, Work.add_products] <;> ring

end Evaluation

theorem Repair.genXPows_dim {m : Nat} {xs : List Poly} (hxs : Repair.genXPows pr m c = .ok xs) : ∀ p ∈ xs, p.Dim c .powerBasis := by
  intro p hp
  unfold Repair.genXPows at hxs
  obtain ⟨lg, -, hxs⟩ := bind_eq_ok.mp hxs
  obtain ⟨i, -, hi⟩ := mem_of_mapR hxs hp
  unfold Repair.xPow at hi
  obtain ⟨_, -, hi⟩ := bind_eq_ok.mp hi
  obtain ⟨_, -, hi⟩ := bind_eq_ok.mp hi
  obtain ⟨_, -, hi⟩ := bind_eq_ok.mp hi
  obtain ⟨y, hy, hi⟩ := bind_eq_ok.mp hi
  exact Poly.neg_dim pr (Poly.fromRows_dim hy) hi

theorem Repair.genXPows_len (hK : K < 64) {xs : List Poly} (hxs : Repair.genXPows pr (2 ^ K) c = .ok xs) : xs.length = K := by
  unfold Repair.genXPows at hxs
  rw [RnsScaler.ilog2_two_pow pr hK, res_ok_bind] at hxs
  rw [(mapR_eq_ok hxs).1, List.length_range]

theorem Repair.unpackC_costs (hc : c.Dim K n) (hK : K < 64) {ev : Evaluation} {ct : BfvCipherText} (hq : ct.params.qCtxs[ct.level]? = some c)
    (hdeg : ct.params.degree = 2 ^ K) (hg : ∀ i, i < K → ∀ g, ev.gk.lookup (2 ^ K / 2 ^ i + 1) = some g → g.gk.Dim c)
    (hlen : ct.cts.length = 2) (hct : ct.Dim c) : Costs (Repair.unpackC pr ev ct) (Work.expansion ⟨n * (K * 2 ^ (K - 1)), 0⟩ K n) fun r => ∀ b ∈ r, b.Dim c := by
  refine .liftBind fun ctx hctx => .liftBind fun xs hxs => .liftBind fun _ _ => Evaluation.unpackWithC_costs pr hc hK hdeg hg (fun p hp => ?_) hlen hct
  refine Poly.changeRepresentationC_ntt_costs pr hc ?_
  rw [idx_of hq] at hctx
  obtain rfl := Except.ok.inj hctx
  exact Repair.genXPows_dim pr hxs p hp

theorem Repair.unpackOnceC_costs (hc : c.Dim K n) (hK : K < 64) {ev : Evaluation} {ct : BfvCipherText} (hq : ct.params.qCtxs[ct.level]? = some c)
    (hdeg : ct.params.degree = 2 ^ K) (hg : ∀ i, i < K → ∀ g, ev.gk.lookup (2 ^ K / 2 ^ i + 1) = some g → g.gk.Dim c)
    (hlen : ct.cts.length = 2) (hct : ct.Dim c) :
    Costs (Repair.unpackOnceC pr ev ct) (⟨K * (n * (K * 2 ^ (K - 1))), 0⟩ + Work.expansion 0 K n) fun r => ∀ b ∈ r, b.Dim c := by
  refine .liftBind fun ctx hctx => .liftBind fun xs hxs => .liftBind fun _ _ => ?_
  rw [idx_of hq] at hctx
  obtain rfl := Except.ok.inj hctx
  rw [hdeg] at hxs
  refine Costs.cast ((Costs.mapConst (Q := fun _ p => Poly.Dim c .ntt p) fun p hp =>
    Poly.changeRepresentationC_ntt_costs pr hc (Repair.genXPows_dim pr hxs p hp)).bind fun ys hys =>
    Evaluation.unpackWithC_costs pr hc hK hdeg hg (x := 0) (fun p hp => ?_) hlen hct) ?_
  · have := forall₂_right hys p hp
    unfold Poly.changeRepresentationC
    rw [this.2.1]
    exact .pure this
  · rw [Repair.genXPows_len pr hK hxs]
    rfl

namespace Server

theorem newC_costs (hc : c.Dim K n) {params : BfvParameters} (hq : params.qCtxs[0]? = some c) (fd dim : Nat) (db : List Plaintext) :
    Costs (newC pr fd dim db params) ⟨db.length * (n * (K * 2 ^ (K - 1))), 0⟩ fun s =>
      s.firstDim = fd ∧ s.dim = dim ∧ s.dbScaled.length = db.length ∧ ∀ p ∈ s.dbScaled, p.Dim c .ntt := by
  refine Costs.bindPure (Q := fun r : List Poly => r.length = db.length ∧ ∀ p ∈ r, p.Dim c .ntt) (Costs.cast ((Costs.mapConst (w := ⟨n * (K * 2 ^ (K - 1)), 0⟩) fun p _ => ?_).mono fun r hr =>
    ⟨hr.length_eq.symm, forall₂_right hr⟩) ?_) fun r hr => ⟨rfl, rfl, hr.1, hr.2⟩
  · refine .liftBind fun ctx hctx => .liftBind fun x hx => ?_
    rw [idx_of hq] at hctx
    obtain rfl := Except.ok.inj hctx
    exact Poly.changeRepresentationC_ntt_costs pr hc (Poly.fromRows_dim hx)
  · rfl

theorem productC_costs (hc : c.Dim K n) (params : BfvParameters) {g : RgswCt} (hg : g.Dim c) {ct : BfvCipherText} (hct : ct.Dim c) :
    Costs (productC pr params g ct) (Work.external K n) (BfvCipherText.Dim c) :=
  (RgswCt.externalProductC_costs pr hc hg hct).bindPure fun r hr p hp => by
    simp only [List.mem_cons, List.not_mem_nil, or_false] at hp
    rcases hp with rfl | rfl
    · exact hr.1
    · exact hr.2

theorem ksk_dim (hc : c.Dim K n) {params : BfvParameters} (hq : params.qCtxs[0]? = some c) {l : List BfvCipherText} (hl : l.length = n) (hd : ∀ b ∈ l, b.Dim c) {k : Ksk}
    (h : Ksk.tryFromDecomposedRlwes params l = .ok k) : k.Dim c := by
  unfold Ksk.tryFromDecomposedRlwes at h
  obtain ⟨c0, h0, h⟩ := bind_eq_ok.mp h
  obtain ⟨c1, h1, h⟩ := bind_eq_ok.mp h
  obtain ⟨ctx, h2, h⟩ := bind_eq_ok.mp h
  rw [idx_of hq] at h2
  obtain rfl := Except.ok.inj h2
  obtain rfl := Except.ok.inj h
  have key : ∀ {j : Nat} {ps : List Poly}, mapR (Ksk.component params j) l = .ok ps → ps.length = c.moduli.length ∧ ∀ p ∈ ps, p.Dim c .ntt := by
    intro j ps hps
    refine ⟨by rw [(mapR_eq_ok hps).1, hl, hc.mods], fun p hp => ?_⟩
    obtain ⟨b, hb, hbp⟩ := mem_of_mapR hps hp
    unfold Ksk.component at hbp
    obtain ⟨_, -, hbp⟩ := bind_eq_ok.mp hbp
    exact hd b hb p (List.mem_of_getElem? (idx_eq_ok.mp hbp))
  exact ⟨rfl, rfl, (key h0).1, (key h1).1, (key h0).2, (key h1).2⟩

theorem selectorRgswC_costs (hc : c.Dim K n) {params : BfvParameters} (hq : params.qCtxs[0]? = some c) {sk : RgswCt} (hsk : sk.Dim c)
    {vals : List (List BfvCipherText)} (hlen : vals.length = n) (hv : ∀ v ∈ vals, ∀ b ∈ v, b.Dim c) (i : Nat) :
    Costs (selectorRgswC pr params sk vals i) (Work.times n (Work.external K n)) (RgswCt.Dim c) := by
  refine .liftBind fun lower hlow => ?_
  have hl : lower.length = n := (mapR_eq_ok hlow).1.trans hlen
  have hd : ∀ b ∈ lower, b.Dim c := fun b hb => by
    obtain ⟨v, hvm, hvb⟩ := mem_of_mapR hlow hb
    exact hv v hvm b (List.mem_of_getElem? (idx_eq_ok.mp hvb))
  refine Costs.cast ((Costs.mapConst (Q := fun _ b => BfvCipherText.Dim c b) fun b hb => productC_costs pr hc params hsk (hd b hb)).bind fun up hup =>
    .liftBind fun k1 h1 => .liftBind fun k0 h0 => .pure ⟨ksk_dim hc hq (hup.length_eq.symm.trans hl) (forall₂_right hup) h0, ksk_dim hc hq hl hd h1⟩) ?_
  rw [hl, Work.add_zero]

theorem sumProductsC_costs {α : Type} (params : BfvParameters) {f : α → Cw BfvCipherText} {w : Work} {xs : List α}
    (hf : ∀ x ∈ xs, Costs (f x) w (BfvCipherText.Dim c)) : Costs (sumProductsC pr params f xs) (Work.times xs.length w) (BfvCipherText.Dim c) := by
  refine Costs.bindPure (Q := fun o : Option BfvCipherText => ∀ s, o = some s → s.Dim c) (Costs.foldConst (fun o x hx ho => ?_) (by simp)) fun o ho => ?_
  · refine Costs.cast ((hf x hx).bind (w' := 0) fun p hp => ?_) (Work.add_zero w)
    cases o with
    | none => exact .pure fun s hs => Option.some.inj hs ▸ hp
    | some s => exact .liftBind fun s' hs' => .pure fun s'' h => Option.some.inj h ▸ BfvCipherText.add_dim pr (ho s rfl) hs'
  · cases o with
    | none => simp [BfvCipherText.Dim]
    | some s => exact ho s rfl

theorem chunks_info {α : Type} {size : Nat} {l : List α} {ch : List (List α)} (h : chunksR size l = .ok ch) :
    0 < size ∧ CeilDiv l.length size ch.length ∧ (ch.map List.length).sum = l.length ∧ ∀ x ∈ ch, x.length ≤ size ∧ ∀ y ∈ x, y ∈ l := by
  have hs : 0 < size := by
    unfold chunksR at h
    by_contra hc
    rw [rassert_fail (by omega)] at h
    cases h
  obtain ⟨m, hm⟩ := CeilDiv.exists l.length hs
  have e := chunksR_any hs hm
  rw [h] at e
  obtain rfl := Except.ok.inj e
  refine ⟨hs, by simpa using hm, ?_, fun x hx => ?_⟩
  · rw [List.map_map]
    have key : ∀ k, k ≤ m → ((List.range k).map (List.length ∘ fun c => (l.drop (c * size)).take size)).sum = min (k * size) l.length := by
      intro k hk
      induction k with
      | zero => simp
      | succ k ih =>
        rw [List.range_succ, List.map_append, List.sum_append, ih (by omega)]
        simp only [List.map_cons, List.map_nil, List.sum_cons, List.sum_nil, Function.comp, List.length_take, List.length_drop, Nat.succ_mul]
        omega
    rw [key m le_rfl]
    have := hm.1
    rw [Nat.mul_comm] at this
    omega
  · obtain ⟨k, -, rfl⟩ := List.mem_map.mp hx
    exact ⟨by simp, fun y hy => List.mem_of_mem_drop (List.mem_of_mem_take hy)⟩

theorem firstDimensionC_costs (hc : c.Dim K n) (params : BfvParameters) {cts : List BfvCipherText} (hcts : ∀ b ∈ cts, b.Dim c)
    {rows : List Poly} (hrows : ∀ p ∈ rows, p.Dim c .ntt) :
    Costs (firstDimensionC pr params cts.length cts rows) (Work.times rows.length ⟨0, 2 * n * 2 ^ K⟩) fun r =>
      (∀ b ∈ r, b.Dim c) ∧ CeilDiv rows.length cts.length r.length := by
  refine .liftBind fun ch hch => ?_
  obtain ⟨-, h1, h2, h3⟩ := chunks_info hch
  refine Costs.cast ((Costs.map (w := fun ps => Work.times ps.length ⟨0, 2 * n * 2 ^ K⟩) (Q := fun _ b => BfvCipherText.Dim c b) fun ps hps => ?_).mono fun r hr =>
    ⟨forall₂_right hr, by rw [← hr.length_eq]; exact h1⟩) ?_
  · refine Costs.cast (sumProductsC_costs pr params fun x hx => ?_) (w := Work.times (cts.zip ps).length ⟨0, 2 * n * 2 ^ K⟩) ?_
    · obtain ⟨x, p⟩ := x
      have := List.of_mem_zip hx
      exact BfvCipherText.mulPolyC_costs pr hc (hcts x this.1) (hrows p ((h3 ps hps).2 p this.2))
    · rw [List.length_zip, Nat.min_eq_right (h3 ps hps).1]
  · rw [Work.sum_times, h2]

theorem nextDimensionC_costs (hc : c.Dim K n) (params : BfvParameters) {gs : List RgswCt} (hgs : ∀ g ∈ gs, g.Dim c)
    {db : List BfvCipherText} (hdb : ∀ b ∈ db, b.Dim c) :
    Costs (nextDimensionC pr params gs.length db gs) (Work.times db.length (Work.external K n)) fun r =>
      (∀ b ∈ r, b.Dim c) ∧ CeilDiv db.length gs.length r.length := by
  refine .liftBind fun ch hch => ?_
  obtain ⟨-, h1, h2, h3⟩ := chunks_info hch
  refine Costs.cast ((Costs.map (w := fun ps => Work.times ps.length (Work.external K n)) (Q := fun _ b => BfvCipherText.Dim c b) fun ps hps => ?_).mono fun r hr =>
    ⟨forall₂_right hr, by rw [← hr.length_eq]; exact h1⟩) ?_
  · refine Costs.cast (sumProductsC_costs pr params fun x hx => ?_) (w := Work.times (gs.zip ps).length (Work.external K n)) ?_
    · obtain ⟨g, b⟩ := x
      have := List.of_mem_zip hx
      exact productC_costs pr hc params (hgs g this.1) (hdb b ((h3 ps hps).2 b this.2))
    · rw [List.length_zip, Nat.min_eq_right (h3 ps hps).1]
  · rw [Work.sum_times, h2]

/-- The external products of the further dimensions, for `len` rows in blocks of `size`. -/
theorem nextLoop_costs (hc : c.Dim K n) (params : BfvParameters) {dim len : Nat} (hd : 0 < dim) : ∀ {byDim : List (List RgswCt)},
    (∀ gs ∈ byDim, gs.length = dim ∧ ∀ g ∈ gs, g.Dim c) → ∀ {size : Nat} {db : List BfvCipherText}, 0 < size → (∀ b ∈ db, b.Dim c) → CeilDiv len size db.length →
    Costs (Cw.fold (nextDimensionC pr params dim) db byDim)
      (Work.times (∑ j ∈ Finset.range byDim.length, (len + size * dim ^ j - 1) / (size * dim ^ j)) (Work.external K n)) fun r => ∀ b ∈ r, b.Dim c
  | [], _, _, _, _, hb, _ => Costs.pureTimes (by simp) hb
  | gs :: byDim, hg, size, db, hs, hb, hl => by
    obtain ⟨rfl, hgs⟩ := hg gs (by simp)
    refine Costs.cast ((nextDimensionC_costs pr hc params hgs hb).bind fun r hr =>
      nextLoop_costs hc params hd (byDim := byDim) (fun x hx => hg x (by simp [hx])) (Nat.mul_pos hs hd) hr.1 (hl.comp hs hr.2)) ?_
    rw [← Work.times_add, List.length_cons, Finset.sum_range_succ', Nat.add_comm]
    congr 1
    congr 1
    · refine Finset.sum_congr rfl fun j _ => ?_
      rw [pow_succ', Nat.mul_assoc]
    · rw [pow_zero, Nat.mul_one]
      exact hl.eq

/-- The number of external products of an answer. -/
def externals (n len fd dim k : Nat) : Nat := dim * k * n + ∑ j ∈ Finset.range k, (len + fd * dim ^ j - 1) / (fd * dim ^ j)

theorem decodeByC_costs (hc : c.Dim K n) {params : BfvParameters} (hq : params.qCtxs[0]? = some c) {dimensions : Res Nat} {k : Nat} (hdims : dimensions = .ok (k + 1))
    {unpack : BfvCipherText → Cw (List BfvCipherText)} {s : Server} {q : List BfvCipherText} {W : Work}
    (hu : ∀ ct ∈ q, Costs (unpack ct) W fun r => ∀ b ∈ r, b.Dim c) {ev : Evaluation} (hsk : ev.skRgsw.Dim c) (hd : 0 < s.dim) (hcount : s.dim * k < 2 ^ 64)
    (hk : k < 2 ^ 63) (hrows : ∀ p ∈ s.dbScaled, p.Dim c .ntt) :
    Costs (decodeByC pr dimensions unpack s q ev params)
      (Work.times (n + 1) W + Work.times (externals n s.dbScaled.length s.firstDim s.dim k) (Work.external K n) + Work.times s.dbScaled.length ⟨0, 2 * n * 2 ^ K⟩)
      fun r => ∀ b ∈ r, b.Dim c := by
  refine .liftBind fun ctx hctx => .liftBind fun _ hlen => .liftBind fun q0 hq0 => ?_
  rw [idx_of hq] at hctx
  obtain rfl := Except.ok.inj hctx
  have hql : q.length = n + 1 := by
    rw [← hc.mods]
    by_contra hcon
    rw [rassert_fail (by omega)] at hlen
    cases hlen
  refine Costs.cast ((hu q0 (List.mem_of_getElem? (idx_eq_ok.mp hq0))).bind (w' := Work.times n W + Work.times (externals n s.dbScaled.length s.firstDim s.dim k)
    (Work.external K n) + Work.times s.dbScaled.length ⟨0, 2 * n * 2 ^ K⟩) fun fd hfd => ?_) (by work)
  refine .liftBind fun fd' hfd' => .liftBind fun dims hdims' => .liftBind fun d hd' => .liftBind fun count hcount' => ?_
  rw [hdims] at hdims'
  obtain rfl := Except.ok.inj hdims'
  rw [subW_ok (by omega), Nat.add_sub_cancel] at hd'
  obtain rfl := Except.ok.inj hd'
  rw [mulW_ok (by rw [Nat.mul_comm]; exact hcount)] at hcount'
  obtain rfl := Except.ok.inj hcount'
  obtain ⟨t1, t2⟩ := takeR_inv hfd'
  have hfd'' : ∀ b ∈ fd', b.Dim c := fun b hb => hfd b (List.mem_of_mem_take (t2 ▸ hb))
  have hfl : fd'.length = s.firstDim := by rw [t2, List.length_take]; omega
  refine Costs.cast ((Costs.mapConst (w := W) (Q := fun _ v => ∀ b ∈ v, BfvCipherText.Dim c b) fun ct hct => ?_).bind (w' :=
    Work.times (externals n s.dbScaled.length s.firstDim s.dim k) (Work.external K n) + Work.times s.dbScaled.length ⟨0, 2 * n * 2 ^ K⟩) fun vals hvals => ?_) ?_
  · exact Costs.cast ((hu ct (List.mem_of_mem_drop hct)).bind (w' := 0) fun u hu => .lift fun v hv b hb => hu b (List.mem_of_mem_take ((takeR_inv hv).2 ▸ hb)))
      (Work.add_zero W)
  · have hvl : vals.length = n := by rw [← hvals.length_eq, List.length_drop]; omega
    refine Costs.cast ((Costs.mapConst (Q := fun _ g => RgswCt.Dim c g) fun i _ => selectorRgswC_costs pr hc hq hsk hvl (forall₂_right hvals) i).bind
      (w' := Work.times (∑ j ∈ Finset.range k, (s.dbScaled.length + s.firstDim * s.dim ^ j - 1) / (s.firstDim * s.dim ^ j)) (Work.external K n) +
        Work.times s.dbScaled.length ⟨0, 2 * n * 2 ^ K⟩) fun gs hgs => ?_) ?_
    · have hgl : gs.length = k * s.dim := by rw [← hgs.length_eq, List.length_range]
      have hgd := forall₂_right hgs
      refine .liftBind fun byDim hby => ?_
      rw [chunksR_any hd (m := k) (l := gs) ⟨by rw [hgl, Nat.mul_comm], by rw [hgl, Nat.mul_comm]; omega⟩] at hby
      obtain rfl := Except.ok.inj hby
      rw [← hfl]
      refine Costs.cast ((firstDimensionC_costs pr hc params hfd'' hrows).bind (w' := Work.times (∑ j ∈ Finset.range k,
        (s.dbScaled.length + fd'.length * s.dim ^ j - 1) / (fd'.length * s.dim ^ j)) (Work.external K n)) fun db hdb => ?_) (by work)
      by_cases hz : 0 < fd'.length
      · refine Costs.cast (nextLoop_costs pr hc params hd (fun x hx => ?_) hz hdb.1 hdb.2) (by rw [List.length_map, List.length_range])
        obtain ⟨i, hi, rfl⟩ := List.mem_map.mp hx
        have hi := List.mem_range.mp hi
        refine ⟨?_, fun g hg => hgd g (List.mem_of_mem_drop (List.mem_of_mem_take hg))⟩
        rw [List.length_take, List.length_drop, hgl, ← Nat.sub_mul]
        exact Nat.min_eq_left (Nat.le_mul_of_pos_left _ (by omega))
      · have := hdb.2.2
        have h0 : fd'.length = 0 := by omega
        have := hdb.2.1
        have := hdb.2.2
        rw [h0] at *
        omega
    · rw [List.length_range, Work.times_times]
      unfold externals
      work
  · rw [List.length_drop, hql, Nat.add_sub_cancel]
    work

end Server
end OnionPIR
