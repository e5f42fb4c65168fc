import Verif.Proofs.LeakRelease
/-
Traces that differ (Model/Leak): the release build leaves different traces when the signs met by `scale` differ.
-/
namespace OnionPIR
namespace Lk

variable {α β γ δ : Type}

/-- There is a first event in which the lists differ. -/
def Split (u v : List Event) : Prop := ∃ w a b x y, a ≠ b ∧ u = w ++ a :: x ∧ v = w ++ b :: y

theorem Split.ne {u v : List Event} (h : Split u v) : u ≠ v := by
  obtain ⟨w, a, b, x, y, hab, rfl, rfl⟩ := h
  intro he
  exact hab (List.cons.inj (List.append_cancel_left he)).1

theorem Split.append {u v : List Event} (h : Split u v) (x y : List Event) : Split (u ++ x) (v ++ y) := by
  obtain ⟨w, a, b, x', y', hab, rfl, rfl⟩ := h
  exact ⟨w, a, b, x' ++ x, y' ++ y, hab, by simp, by simp⟩

theorem Split.prepend {u v : List Event} (h : Split u v) (w : List Event) : Split (w ++ u) (w ++ v) := by
  obtain ⟨w', a, b, x', y', hab, rfl, rfl⟩ := h
  exact ⟨w ++ w', a, b, x', y', hab, by simp, by simp⟩

/-- If both runs return, there is a first event in which their traces differ. -/
def Apart (x : Lk α) (y : Lk β) : Prop := ∀ a b, x.val = .ok a → y.val = .ok b → Split x.trace y.trace

theorem Apart.bind {x : Lk α} {y : Lk β} (h : Apart x y) (f : α → Lk γ) (g : β → Lk δ) : Apart (x >>= f) (y >>= g) := by
  intro c d hc hd
  rw [bind_val] at hc hd
  obtain ⟨a, hx, hc⟩ := bind_eq_ok.mp hc
  obtain ⟨b, hy, hd⟩ := bind_eq_ok.mp hd
  rw [bind_trace_ok hx, bind_trace_ok hy]
  exact (h a b hx hy).append _ _

theorem Sim.bindApart {R : α → β → Prop} {x : Lk α} {y : Lk β} (h : Sim R x y) {f : α → Lk γ} {g : β → Lk δ}
    (hf : ∀ a b, x.val = .ok a → y.val = .ok b → R a b → Apart (f a) (g b)) : Apart (x >>= f) (y >>= g) := by
  intro c d hc hd
  rw [bind_val] at hc hd
  obtain ⟨a, hx, hc⟩ := bind_eq_ok.mp hc
  obtain ⟨b, hy, hd⟩ := bind_eq_ok.mp hd
  rw [bind_trace_ok hx, bind_trace_ok hy, (h a b hx hy).1]
  exact (hf a b hx hy (h a b hx hy).2 c d hc hd).prepend _

theorem Apart.test {a b : Bool} (h : a ≠ b) : Apart (Lk.test a) (Lk.test b) :=
  fun _ _ _ _ => ⟨[], .branch a, .branch b, [], [], by simpa using h, rfl, rfl⟩

/-- Two loops over the same list, one step of which is apart while all steps before leave the same trace. -/
theorem Apart.map {f : α → Lk γ} {g : α → Lk δ} {R : γ → δ → Prop} : ∀ {l : List α}, (∀ a ∈ l, Sim R (f a) (g a) ∨ Apart (f a) (g a)) →
    (∃ a ∈ l, Apart (f a) (g a)) → Apart (Lk.map f l) (Lk.map g l)
  | [], _, h => by obtain ⟨a, ha, -⟩ := h; simp at ha
  | x :: l, h1, h2 => by
      refine (Sim.test true).bindApart fun _ _ _ _ _ => ?_
      by_cases hx : Apart (f x) (g x)
      · exact hx.bind _ _
      · have hs := (h1 x List.mem_cons_self).resolve_right hx
        refine hs.bindApart fun _ _ _ _ _ => ?_
        refine (Apart.map (R := R) (fun a ha => h1 a (List.mem_cons_of_mem _ ha)) ?_).bind _ _
        obtain ⟨a, ha, h3⟩ := h2
        rcases List.mem_cons.mp ha with rfl | ha
        · exact absurd h3 hx
        · exact ⟨a, ha, h3⟩

end Lk

open Lk

namespace RnsScaler

theorem roundWL_apart {s s' : U256} (h : decide (s.msb > 0) ≠ decide (s'.msb > 0)) : Apart (roundWL .release s) (roundWL .release s') :=
  (Apart.test h).bind _ _

theorem scaleWL_apart (s : RnsScaler) {r r' : List Nat} (h : SameLen r r') (v v' : Nat) {a b : Bool × Nat} (ha : scaleW .release s r v = .ok a)
    (hb : scaleW .release s r' v' = .ok b) (hab : a.1 ≠ b.1) : Apart (scaleWL .release s r v) (scaleWL .release s r' v') := by
  rw [← scaleWL_val] at ha hb
  unfold scaleWL at ha hb ⊢
  refine (Sim.test _).bindApart fun x x' _ _ hx => ?_
  obtain ⟨rfl, rfl⟩ := hx
  rw [bind_val] at ha hb
  simp only [test_val, res_ok_bind] at ha hb
  cases hs : !s.scalingFactor.isOne
  · rw [hs] at ha hb
    cases ha; cases hb
    exact absurd rfl hab
  · rw [hs] at ha hb
    simp only [if_true] at ha hb ⊢
    refine (sumThetaOmegaL_sim _ _ _ h _ _).bindApart fun u u' hu hu' _ => ?_
    rw [bind_val, hu, res_ok_bind] at ha
    rw [bind_val, hu', res_ok_bind] at hb
    refine (Sim.silent (vThetaGammaL_silent _ _ _) (vThetaGammaL_silent _ _ _)).bindApart fun t t' ht ht' _ => ?_
    rw [bind_val, ht, res_ok_bind] at ha
    rw [bind_val, ht', res_ok_bind] at hb
    refine (Sim.test _).bindApart fun g g' _ _ hg => ?_
    obtain ⟨rfl, rfl⟩ := hg
    rw [bind_val, test_val, res_ok_bind, roundWL_val] at ha hb
    refine roundWL_apart ?_
    rw [← roundW_sign ha, ← roundW_sign hb]
    exact hab

theorem scaleL_apart (s : RnsScaler) {r r' : List Nat} (h : SameLen r r') {a b : Bool} (ha : s.signOf r = some a) (hb : s.signOf r' = some b)
    (hab : a ≠ b) (n i : Nat) : Apart (s.scaleL .release r n i) (s.scaleL .release r' n i) := by
  refine (Sim.silent rfl rfl).bindApart fun _ _ _ _ _ => (Sim.silent rfl rfl).bindApart fun _ _ _ _ _ => (Sim.silent rfl rfl).bindApart fun _ _ _ _ _ => ?_
  refine (scaleVL_sim s h).bindApart fun v v' hv hv' _ => ?_
  rw [scaleVL_val] at hv hv'
  unfold signOf at ha hb
  rw [hv] at ha
  rw [hv'] at hb
  simp only at ha hb
  cases hw : scaleW .release s r v with
  | error e => rw [hw] at ha; simp at ha
  | ok w =>
    cases hw' : scaleW .release s r' v' with
    | error e => rw [hw'] at hb; simp at hb
    | ok w' =>
      rw [hw] at ha
      rw [hw'] at hb
      simp only [Option.some.injEq] at ha hb
      exact (scaleWL_apart s h v v' hw hw' (by rw [ha, hb]; exact hab)).bind _ _

end RnsScaler

namespace RqScaler
open RnsScaler Poly

theorem scaleL_apart (s : RqScaler) {p q : Poly} (h : Like p q) (hp : p.representation = .powerBasis)
    (hn : s.numberCommonModuli < s.dst.moduli64.length) {a b : Nat → Bool} (ha : s.signs p = (List.range s.src.degree).map fun k => some (a k))
    (hb : s.signs q = (List.range s.src.degree).map fun k => some (b k)) (hab : ∃ k < s.src.degree, a k ≠ b k) :
    Apart (s.scaleL .release p) (s.scaleL .release q) := by
  have hq : q.representation = .powerBasis := h.2.1 ▸ hp
  unfold RqScaler.scaleL
  refine (Sim.rassert (by rw [h.1])).bindApart fun _ _ _ _ _ => ?_
  rw [hp, hq]
  refine (Sim.test _).bindApart fun x x' _ _ hx => ?_
  obtain ⟨rfl, rfl⟩ := hx
  simp only [ne_eq, not_true_eq_false, decide_false, Bool.false_eq_true, if_false]
  refine Apart.bind ?_ _ _
  unfold scaleColumnsL
  refine (Sim.test _).bindApart fun x x' _ _ hx => ?_
  obtain ⟨rfl, rfl⟩ := hx
  rw [decide_eq_true hn]
  simp only [if_true]
  have key : ∀ k, k < s.src.degree → ∃ c d, p.column k = .ok c ∧ q.column k = .ok d ∧ s.rnsScaler.signOf c = some (a k) ∧
      s.rnsScaler.signOf d = some (b k) ∧ SameLen c d := by
    intro k hk
    have h1 := List.map_inj_left.mp ha k (List.mem_range.mpr hk)
    have h2 := List.map_inj_left.mp hb k (List.mem_range.mpr hk)
    cases hc : p.column k with
    | error e => rw [hc] at h1; simp at h1
    | ok c =>
      cases hd : q.column k with
      | error e => rw [hd] at h2; simp at h2
      | ok d =>
        rw [hc] at h1
        rw [hd] at h2
        exact ⟨c, d, rfl, rfl, h1, h2, by rw [SameLen, column_len hc, column_len hd]; exact h.2.2.length_eq⟩
  have step : ∀ k, k < s.src.degree → a k ≠ b k → Apart
      (do let col ← columnL p k; s.rnsScaler.scaleL .release col (s.dst.moduli.length - s.numberCommonModuli) s.numberCommonModuli)
      (do let col ← columnL q k; s.rnsScaler.scaleL .release col (s.dst.moduli.length - s.numberCommonModuli) s.numberCommonModuli) := by
    intro k hk hne
    obtain ⟨c, d, e1, e2, e3, e4, e5⟩ := key k hk
    refine Sim.bindApart (x := columnL p k) (y := columnL q k) (R := fun x y => x = c ∧ y = d) (fun x y hx hy => ⟨rfl, ?_, ?_⟩) fun x y _ _ hxy => ?_
    · exact Except.ok.inj (hx.symm.trans e1)
    · exact Except.ok.inj (hy.symm.trans e2)
    obtain ⟨rfl, rfl⟩ := hxy
    exact RnsScaler.scaleL_apart _ e5 e3 e4 hne _ _
  refine Apart.map (R := SameLen) (fun k hk => ?_) ?_
  · have hk := List.mem_range.mp hk
    by_cases hne : a k = b k
    · left
      obtain ⟨c, d, e1, e2, e3, e4, e5⟩ := key k hk
      refine Sim.bind (x := columnL p k) (y := columnL q k) (R := fun x y => x = c ∧ y = d) (fun x y hx hy => ⟨rfl, ?_, ?_⟩) fun x y hxy => ?_
      · exact Except.ok.inj (hx.symm.trans e1)
      · exact Except.ok.inj (hy.symm.trans e2)
      obtain ⟨rfl, rfl⟩ := hxy
      exact RnsScaler.scaleL_sim _ e5 (by rw [e3, e4, hne]) _ _
    · exact .inr (step k hk hne)
  · obtain ⟨k, hk, hne⟩ := hab
    exact ⟨k, List.mem_range.mpr hk, step k hk hne⟩

end RqScaler

namespace SecretKey
open Poly Modulus

theorem decryptL_apart {sk sk' : SecretKey} (hP : sk.params = sk'.params) (h : SameLen sk.coeffs sk'.coeffs) {ct ct' : BfvCipherText}
    (hl : ct.level = ct'.level) (hc : List.Forall₂ Like ct.cts ct'.cts) {sc : RqScaler} (hsc : idx sk.params.scalars ct.level = .ok sc)
    (hn : sc.numberCommonModuli < sc.dst.moduli64.length) {a b : Nat → Bool}
    (ha : sk.signs ct = .ok ((List.range sc.src.degree).map fun k => some (a k)))
    (hb : sk'.signs ct' = .ok ((List.range sc.src.degree).map fun k => some (b k))) (hab : ∃ k < sc.src.degree, a k ≠ b k) :
    Apart (sk.decryptL .release ct) (sk'.decryptL .release ct') := by
  unfold decryptL
  unfold signs at ha hb
  refine (phaseL_sim h hc).bindApart fun m m' e1 e2 hm => ?_
  rw [phaseL_val] at e1 e2
  refine (changeRepresentationL_sim hm .powerBasis).bindApart fun n n' e3 e4 hn' => ?_
  rw [changeRepresentationL_val] at e3 e4
  rw [e1, res_ok_bind, e3, res_ok_bind, hsc, res_ok_bind] at ha
  rw [e2, res_ok_bind, e4, res_ok_bind, ← hP, ← hl, hsc, res_ok_bind] at hb
  rw [← hP, ← hl]
  refine (Sim.idx_same _ _).bindApart fun s s' h1 _ hs => ?_
  subst hs
  obtain rfl : s = sc := Except.ok.inj (h1.symm.trans hsc)
  exact (RqScaler.scaleL_apart s hn' (changeRepresentation_rep e3) hn (Except.ok.inj ha) (Except.ok.inj hb) hab).bind _ _

end SecretKey
end OnionPIR
