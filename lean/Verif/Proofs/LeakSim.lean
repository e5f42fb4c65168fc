import Verif.Proofs.Leak
/-
Comparison of the traces of two runs in the release build (Model/Leak).
-/
namespace OnionPIR
namespace Lk

/-- Whatever the two runs return, they leave the same trace, and the results are related by `R`. -/
def Sim {α β : Type} (R : α → β → Prop) (x : Lk α) (y : Lk β) : Prop :=
  ∀ a b, x.val = .ok a → y.val = .ok b → x.trace = y.trace ∧ R a b

variable {α β γ δ σ τ : Type}

theorem Sim.bind {R : α → β → Prop} {S : γ → δ → Prop} {x : Lk α} {y : Lk β} {f : α → Lk γ} {g : β → Lk δ} (h : Sim R x y)
    (hf : ∀ a b, R a b → Sim S (f a) (g b)) : Sim S (x >>= f) (y >>= g) := by
  intro c d hc hd
  rw [bind_val] at hc hd
  cases hx : x.val with
  | error e => rw [hx] at hc; exact absurd hc (by simp)
  | ok a =>
    cases hy : y.val with
    | error e => rw [hy] at hd; exact absurd hd (by simp)
    | ok b =>
      rw [hx, res_ok_bind] at hc
      rw [hy, res_ok_bind] at hd
      obtain ⟨h1, h2⟩ := h a b hx hy
      obtain ⟨h3, h4⟩ := hf a b h2 c d hc hd
      rw [bind_trace_ok hx, bind_trace_ok hy, h1, h3]
      exact ⟨rfl, h4⟩

theorem Sim.mono {R S : α → β → Prop} {x : Lk α} {y : Lk β} (h : Sim R x y) (hi : ∀ a b, R a b → S a b) : Sim S x y :=
  fun a b ha hb => ⟨(h a b ha hb).1, hi _ _ (h a b ha hb).2⟩

/-- The results may be related by what is known of the values. -/
theorem Sim.strengthen {R S : α → β → Prop} {x : Lk α} {y : Lk β} (h : Sim R x y)
    (hi : ∀ a b, x.val = .ok a → y.val = .ok b → R a b → S a b) : Sim S x y :=
  fun a b ha hb => ⟨(h a b ha hb).1, hi _ _ ha hb (h a b ha hb).2⟩

theorem Sim.pure {R : α → β → Prop} {a : α} {b : β} (h : R a b) : Sim R (Pure.pure a : Lk α) (Pure.pure b : Lk β) := by
  intro a' b' ha hb
  cases ha; cases hb
  exact ⟨rfl, h⟩

theorem Sim.lift {R : α → β → Prop} {x : Res α} {y : Res β} (h : ∀ a b, x = .ok a → y = .ok b → R a b) : Sim R (Lk.lift x) (Lk.lift y) :=
  fun a b ha hb => ⟨rfl, h a b ha hb⟩

theorem Sim.test (b : Bool) : Sim (fun x y => x = b ∧ y = b) (Lk.test b) (Lk.test b) := by
  intro a b' ha hb
  cases ha; cases hb
  exact ⟨rfl, rfl, rfl⟩

theorem Sim.rassert {c d : Prop} [Decidable c] [Decidable d] (h : c ↔ d) : Sim (fun _ _ => True) (Lk.rassert c) (Lk.rassert d) :=
  fun _ _ _ _ => ⟨by simp only [Lk.rassert, h], trivial⟩

theorem Sim.idx (l : List α) (l' : List β) (i : Nat) : Sim (fun x y => l[i]? = some x ∧ l'[i]? = some y) (Lk.idx l i) (Lk.idx l' i) := by
  intro a b ha hb
  refine ⟨rfl, ?_, ?_⟩
  · have : OnionPIR.idx l i = .ok a := ha
    unfold OnionPIR.idx at this
    cases h : l[i]? <;> rw [h] at this <;> simp_all
  · have : OnionPIR.idx l' i = .ok b := hb
    unfold OnionPIR.idx at this
    cases h : l'[i]? <;> rw [h] at this <;> simp_all

/-- Access to a public table. -/
theorem Sim.idx_same (l : List α) (i : Nat) : Sim (fun x y => x = y) (Lk.idx l i) (Lk.idx l i) :=
  (Sim.idx l l i).mono fun _ _ h => Option.some.inj (h.1.symm.trans h.2)

theorem Sim.ite {R : α → β → Prop} {x y : Lk α} {x' y' : Lk β} {b : Bool} (h1 : b = true → Sim R x x') (h2 : b = false → Sim R y y') :
    Sim R (if b then x else y) (if b then x' else y') := by
  cases b
  · exact h2 rfl
  · exact h1 rfl

theorem silent_bind {x : Lk α} {f : α → Lk β} (h : x.trace = []) (hf : ∀ a, (f a).trace = []) : (x >>= f).trace = [] := by
  show (match x.val with
    | .ok a => (⟨(f a).val, x.trace ++ (f a).trace⟩ : Lk β)
    | .error e => ⟨.error e, x.trace⟩).trace = _
  cases x.val
  · exact h
  · simp only [h, hf, List.append_nil]

theorem bind_trace_error {x : Lk α} {f : α → Lk β} {e : Panic} (h : x.val = .error e) : (x >>= f).trace = x.trace := by
  show (match x.val with
    | .ok a => (⟨(f a).val, x.trace ++ (f a).trace⟩ : Lk β)
    | .error e => ⟨.error e, x.trace⟩).trace = _
  rw [h]

theorem mem_bind_left {x : Lk α} {f : α → Lk β} {e : Event} (h : e ∈ x.trace) : e ∈ (x >>= f).trace := by
  cases hx : x.val with
  | error p => rwa [bind_trace_error hx]
  | ok a => rw [bind_trace_ok hx]; exact List.mem_append_left _ h

theorem mem_bind_right {x : Lk α} {f : α → Lk β} {e : Event} {a : α} {y : Lk β} (hx : x.val = .ok a) (hf : f a = y) (h : e ∈ y.trace) :
    e ∈ (x >>= f).trace := by
  rw [bind_trace_ok hx, hf]; exact List.mem_append_right _ h

theorem bind_pure_trace (x : Lk α) (f : α → β) : (x >>= fun a => (Pure.pure (f a) : Lk β)).trace = x.trace := by
  cases hx : x.val with
  | error p => rw [bind_trace_error hx]
  | ok a => rw [bind_trace_ok hx]; exact List.append_nil _

theorem Sim.silent {x : Lk α} {y : Lk β} (h1 : x.trace = []) (h2 : y.trace = []) : Sim (fun _ _ => True) x y := fun _ _ _ _ => ⟨by rw [h1, h2], trivial⟩

theorem Sim.map {f : α → Lk γ} {g : β → Lk δ} {R : γ → δ → Prop} {P : α → β → Prop} {l : List α} {l' : List β} (hl : List.Forall₂ P l l')
    (h : ∀ a b, P a b → Sim R (f a) (g b)) : Sim (List.Forall₂ R) (Lk.map f l) (Lk.map g l') := by
  induction hl with
  | nil => exact (Sim.test false).bind fun _ _ _ => Sim.pure .nil
  | cons hab _ ih =>
    exact (Sim.test true).bind fun _ _ _ => (h _ _ hab).bind fun x y hxy => ih.bind fun r s hrs => Sim.pure (.cons hxy hrs)

theorem Sim.fold {f : σ → α → Lk σ} {g : τ → α → Lk τ} {R : σ → τ → Prop} {l : List α}
    (h : ∀ s t a, a ∈ l → R s t → Sim R (f s a) (g t a)) {s : σ} {t : τ} (h0 : R s t) : Sim R (Lk.fold f s l) (Lk.fold g t l) := by
  induction l generalizing s t with
  | nil => exact (Sim.test false).bind fun _ _ _ => Sim.pure h0
  | cons a as ih =>
    exact (Sim.test true).bind fun _ _ _ => (h s t a (by simp) h0).bind fun s' t' h' => ih (fun s t a ha => h s t a (by simp [ha])) h'

/-- Two loops over different lists of the same length. -/
theorem Sim.fold₂ {f : σ → α → Lk σ} {g : τ → β → Lk τ} {R : σ → τ → Prop} {P : α → β → Prop} {l : List α} {l' : List β} (hl : List.Forall₂ P l l')
    (h : ∀ s t a b, P a b → R s t → Sim R (f s a) (g t b)) {s : σ} {t : τ} (h0 : R s t) : Sim R (Lk.fold f s l) (Lk.fold g t l') := by
  induction hl generalizing s t with
  | nil => exact (Sim.test false).bind fun _ _ _ => Sim.pure h0
  | cons hab _ ih => exact (Sim.test true).bind fun _ _ _ => (h s t _ _ hab h0).bind fun s' t' h' => ih h'

theorem Sim.zipMut {f : α → γ → Lk α} {g : β → δ → Lk β} {R : α → β → Prop} {P : γ → δ → Prop} {l : List α} {l' : List β} {k : List γ} {k' : List δ}
    (hl : List.Forall₂ R l l') (hk : List.Forall₂ P k k') (h : ∀ a b c d, R a b → P c d → Sim R (f a c) (g b d)) :
    Sim (List.Forall₂ R) (Lk.zipMut f l k) (Lk.zipMut g l' k') := by
  induction hl generalizing k k' with
  | nil => exact (Sim.test false).bind fun _ _ _ => Sim.pure .nil
  | cons hab hl ih =>
    cases hk with
    | nil => exact (Sim.test false).bind fun _ _ _ => Sim.pure (.cons hab hl)
    | cons hcd hk =>
      exact (Sim.test true).bind fun _ _ _ => (h _ _ _ _ hab hcd).bind fun x y hxy => (ih hk).bind fun r s hrs => Sim.pure (.cons hxy hrs)

theorem Sim.zip3Mut {ε : Type} {f : α → γ → ε → Lk α} {g : β → δ → ε → Lk β} {R : α → β → Prop} {P : γ → δ → Prop} {l : List α} {l' : List β}
    {k : List γ} {k' : List δ} {m : List ε} (hl : List.Forall₂ R l l') (hk : List.Forall₂ P k k')
    (h : ∀ a b c d e, R a b → P c d → Sim R (f a c e) (g b d e)) : Sim (List.Forall₂ R) (Lk.zip3Mut f l k m) (Lk.zip3Mut g l' k' m) := by
  induction hl generalizing k k' m with
  | nil => exact (Sim.test false).bind fun _ _ _ => Sim.pure .nil
  | cons hab hl ih =>
    cases hk with
    | nil => exact (Sim.test false).bind fun _ _ _ => Sim.pure (.cons hab hl)
    | cons hcd hk =>
      cases m with
      | nil => exact (Sim.test false).bind fun _ _ _ => Sim.pure (.cons hab hl)
      | cons e m =>
        exact (Sim.test true).bind fun _ _ _ => (h _ _ _ _ _ hab hcd).bind fun x y hxy => (ih hk).bind fun r s hrs => Sim.pure (.cons hxy hrs)

end Lk
end OnionPIR
