import Verif.Model.Debug
/-
Unique readability of the texts of Verif.Model.Debug: a printed value followed by a character that cannot occur in a
number determines the value and the rest of the text.
-/
namespace OnionPIR
namespace Dbg

/-- Characters that can occur in a number, a truth value or the name of a variant. -/
def word (c : Char) : Bool := c.isAlphanum || c == '-'

/-- The text is empty or begins with a character that cannot occur in a word. -/
def Sep (r : List Char) : Prop := ∀ c ∈ r.head?, word c = false

/-- What `f` prints is readable: followed by a separator it determines the value and the rest. -/
def Delim {α : Type} (f : α → List Char) : Prop :=
  ∀ a b r r', Sep r → Sep r' → f a ++ r = f b ++ r' → a = b ∧ r = r'

theorem word_split {a b r r' : List Char} (ha : ∀ c ∈ a, word c = true) (hb : ∀ c ∈ b, word c = true)
    (hr : Sep r) (hr' : Sep r') (h : a ++ r = b ++ r') : a = b ∧ r = r' := by
  induction a generalizing b with
  | nil =>
    cases b with
    | nil => exact ⟨rfl, by simpa using h⟩
    | cons c b =>
      simp only [List.nil_append, List.cons_append] at h
      have h1 := hr c (by simp [h])
      have h2 := hb c (by simp)
      rw [h1] at h2
      exact absurd h2 (by simp)
  | cons d a ih =>
    cases b with
    | nil =>
      simp only [List.nil_append, List.cons_append] at h
      have h1 := hr' d (by simp [← h])
      have h2 := ha d (by simp)
      rw [h1] at h2
      exact absurd h2 (by simp)
    | cons c b =>
      simp only [List.cons_append, List.cons.injEq] at h
      obtain ⟨e, h⟩ := h
      obtain ⟨e1, e2⟩ := ih (b := b) (fun c hc => ha c (by simp [hc])) (fun c hc => hb c (by simp [hc])) h
      exact ⟨by rw [e, e1], e2⟩

/-- Texts consisting of words are readable if they are different for different values. -/
theorem delim_of_word {α : Type} {f : α → List Char} (hf : ∀ a, ∀ c ∈ f a, word c = true)
    (hi : ∀ a b, f a = f b → a = b) : Delim f := by
  intro a b r r' hr hr' h
  obtain ⟨e, e'⟩ := word_split (hf a) (hf b) hr hr' h
  exact ⟨hi a b e, e'⟩

theorem nat_word (n : Nat) : ∀ c ∈ nat n, word c = true := by
  intro c hc
  have := Nat.isDigit_of_mem_toDigits (b := 10) (by decide) (by decide) hc
  simp [word, Char.isAlphanum, this]

theorem nat_inj {a b : Nat} (h : nat a = nat b) : a = b := by
  have := congrArg (fun l => Nat.ofDigitChars 10 l 0) h
  simpa [nat, Nat.ofDigitChars_ten_toDigits] using this

theorem delim_nat : Delim nat := delim_of_word nat_word (fun _ _ => nat_inj)

theorem nat_ne_minus (n m : Nat) : nat n ≠ '-' :: nat m := by
  intro h
  have : '-' ∈ nat n := by rw [h]; simp
  have := Nat.isDigit_of_mem_toDigits (b := 10) (by decide) (by decide) this
  exact absurd this (by decide)

theorem delim_int : Delim int := by
  refine delim_of_word ?_ ?_
  · intro z c hc
    unfold int at hc
    split at hc
    · rcases List.mem_cons.1 hc with rfl | hc
      · decide
      · exact nat_word _ c hc
    · exact nat_word _ c hc
  · intro a b h
    unfold int at h
    split at h <;> split at h
    · have := nat_inj (List.cons.inj h).2
      omega
    · exact absurd h.symm (nat_ne_minus _ _)
    · exact absurd h (nat_ne_minus _ _)
    · have := nat_inj h
      omega

theorem delim_bool : Delim bool := by
  refine delim_of_word ?_ ?_
  · intro b; cases b <;> decide
  · intro a b; cases a <;> cases b <;> decide

theorem delim_encoding : Delim encoding := by
  refine delim_of_word ?_ ?_
  · intro b; cases b <;> decide
  · intro a b; cases a <;> cases b <;> decide

theorem delim_representation : Delim representation := by
  refine delim_of_word ?_ ?_
  · intro b; cases b <;> decide
  · intro a b; cases a <;> cases b <;> decide

theorem sep_cons {c : Char} (hc : word c = false) (r : List Char) : Sep (c :: r) := by
  intro d hd
  simp only [List.head?_cons, Option.mem_def, Option.some.injEq] at hd
  rw [← hd]; exact hc

theorem sep_nil : Sep [] := by intro d hd; simp at hd

theorem sep_listTail {α : Type} (f : α → List Char) (xs : List α) (r : List Char) : Sep (listTail f xs ++ r) := by
  cases xs with
  | nil => exact sep_cons (c := ']') (by decide) _
  | cons x xs =>
    rw [listTail, List.append_assoc, List.append_assoc]
    exact sep_cons (c := ',') (by decide) _

theorem listTail_inj {α : Type} {f : α → List Char} (hf : Delim f) {xs ys : List α} {r r' : List Char}
    (h : listTail f xs ++ r = listTail f ys ++ r') : xs = ys ∧ r = r' := by
  induction xs generalizing ys with
  | nil =>
    cases ys with
    | nil => exact ⟨rfl, List.append_cancel_left h⟩
    | cons y ys =>
      have := congrArg List.head? h
      simp [listTail, lit] at this
  | cons x xs ih =>
    cases ys with
    | nil =>
      have := congrArg List.head? h
      simp [listTail, lit] at this
    | cons y ys =>
      simp only [listTail, List.append_assoc] at h
      have h := List.append_cancel_left h
      obtain ⟨e, h⟩ := hf _ _ _ _ (sep_listTail f xs r) (sep_listTail f ys r') h
      obtain ⟨e1, e2⟩ := ih h
      exact ⟨by rw [e, e1], e2⟩

/-- A slice is printed so that it can be read off, whatever follows, if no element begins with a bracket. -/
theorem delim_list {α : Type} {f : α → List Char} (hf : Delim f) (hne : ∀ a r, (f a ++ r).head? ≠ some ']') :
    ∀ xs ys r r', list f xs ++ r = list f ys ++ r' → xs = ys ∧ r = r' := by
  intro xs ys r r' h
  cases xs with
  | nil =>
    cases ys with
    | nil => exact ⟨rfl, List.append_cancel_left h⟩
    | cons y ys =>
      simp only [list, List.append_assoc] at h
      have h : lit "[" ++ (lit "]" ++ r) = lit "[" ++ (f y ++ (listTail f ys ++ r')) := h
      have h := List.append_cancel_left h
      exact absurd (by rw [← h]; rfl) (hne y (listTail f ys ++ r'))
  | cons x xs =>
    cases ys with
    | nil =>
      simp only [list, List.append_assoc] at h
      have h : lit "[" ++ (f x ++ (listTail f xs ++ r)) = lit "[" ++ (lit "]" ++ r') := h
      have h := List.append_cancel_left h
      exact absurd (by rw [h]; rfl) (hne x (listTail f xs ++ r))
    | cons y ys =>
      simp only [list, List.append_assoc] at h
      have h := List.append_cancel_left h
      obtain ⟨e, h⟩ := hf _ _ _ _ (sep_listTail f xs r) (sep_listTail f ys r') h
      obtain ⟨e1, e2⟩ := listTail_inj hf h
      exact ⟨by rw [e, e1], e2⟩

theorem nat_head (n : Nat) (r : List Char) : (nat n ++ r).head? ≠ some ']' := by
  intro h
  rcases hn : nat n with _ | ⟨c, l⟩
  · exact Nat.toDigits_ne_nil hn
  · rw [hn] at h
    simp only [List.cons_append, List.head?_cons, Option.some.injEq] at h
    have := nat_word n c (by rw [hn]; simp)
    rw [h] at this
    exact absurd this (by decide)

theorem int_head (z : Int) (r : List Char) : (int z ++ r).head? ≠ some ']' := by
  unfold int
  split
  · intro h
    have := Option.some.inj h
    exact absurd this (by decide)
  · exact nat_head _ r

theorem delim_nats : Delim (list nat) := fun a b r r' _ _ h => delim_list delim_nat nat_head a b r r' h

theorem delim_ints : Delim (list int) := fun a b r r' _ _ h => delim_list delim_int int_head a b r r' h

theorem sep_fieldsTail (fs : List (String × List Char)) (r : List Char) : Sep (fieldsTail fs ++ r) := by
  cases fs with
  | nil => exact sep_cons (c := ' ') (by decide) _
  | cons x fs =>
    simp only [fieldsTail, List.append_assoc]
    exact sep_cons (c := ',') (by decide) _

/-- One field of a struct can be read off. -/
theorem field_inj {α : Type} {f : α → List Char} (hf : Delim f) {k : String} {a b : α}
    {fs gs : List (String × List Char)} {r r' : List Char}
    (h : fieldsTail ((k, f a) :: fs) ++ r = fieldsTail ((k, f b) :: gs) ++ r') :
    a = b ∧ fieldsTail fs ++ r = fieldsTail gs ++ r' := by
  simp only [fieldsTail, List.append_assoc] at h
  exact hf _ _ _ _ (sep_fieldsTail fs r) (sep_fieldsTail gs r')
    (List.append_cancel_left (List.append_cancel_left (List.append_cancel_left h)))

/-- The first field of a struct can be read off. -/
theorem struct_inj {α : Type} {f : α → List Char} (hf : Delim f) {n k : String} {a b : α}
    {fs gs : List (String × List Char)} {r r' : List Char}
    (h : struct n ((k, f a) :: fs) ++ r = struct n ((k, f b) :: gs) ++ r') :
    a = b ∧ fieldsTail fs ++ r = fieldsTail gs ++ r' := by
  simp only [struct, List.append_assoc] at h
  exact hf _ _ _ _ (sep_fieldsTail fs r) (sep_fieldsTail gs r')
    (List.append_cancel_left (List.append_cancel_left (List.append_cancel_left (List.append_cancel_left h))))

theorem sep_tupleTail (vs : List (List Char)) (r : List Char) : Sep (tupleTail vs ++ r) := by
  cases vs with
  | nil => exact sep_cons (c := ')') (by decide) _
  | cons v vs =>
    simp only [tupleTail, List.append_assoc]
    exact sep_cons (c := ',') (by decide) _

/-- One component of a tuple struct can be read off. -/
theorem component_inj {α : Type} {f : α → List Char} (hf : Delim f) {a b : α} {vs ws : List (List Char)}
    {r r' : List Char} (h : tupleTail (f a :: vs) ++ r = tupleTail (f b :: ws) ++ r') :
    a = b ∧ tupleTail vs ++ r = tupleTail ws ++ r' := by
  simp only [tupleTail, List.append_assoc] at h
  exact hf _ _ _ _ (sep_tupleTail vs r) (sep_tupleTail ws r') (List.append_cancel_left h)

/-- The first component of a tuple struct can be read off. -/
theorem tuple_inj {α : Type} {f : α → List Char} (hf : Delim f) {n : String} {a b : α} {vs ws : List (List Char)}
    {r r' : List Char} (h : tuple n (f a :: vs) ++ r = tuple n (f b :: ws) ++ r') :
    a = b ∧ tupleTail vs ++ r = tupleTail ws ++ r' := by
  simp only [tuple, List.append_assoc] at h
  exact hf _ _ _ _ (sep_tupleTail vs r) (sep_tupleTail ws r')
    (List.append_cancel_left (List.append_cancel_left h))

theorem params_inj {P P' : BfvParameters} {r r' : List Char} (h : params P ++ r = params P' ++ r') :
    (P.degree = P'.degree ∧ P.ciphertextModuli = P'.ciphertextModuli) ∧ r = r' := by
  obtain ⟨e1, h⟩ := struct_inj delim_nat h
  obtain ⟨e2, h⟩ := field_inj delim_nats h
  exact ⟨⟨e1, e2⟩, List.append_cancel_left h⟩

/-- What is printed of parameters, as function of the two printed fields. -/
def paramsOf (x : Nat × List Nat) : List Char :=
  struct "BfvParameters" [("polynomial_degree", nat x.1), ("moduli", list nat x.2)]

theorem delim_paramsOf : Delim paramsOf := by
  intro a b r r' _ _ h
  obtain ⟨e1, h⟩ := struct_inj delim_nat h
  obtain ⟨e2, h⟩ := field_inj delim_nats h
  exact ⟨Prod.ext e1 e2, List.append_cancel_left h⟩

theorem delim_modulus : Delim modulus := by
  rintro ⟨a1, a2, a3⟩ ⟨b1, b2, b3⟩ r r' _ _ h
  obtain ⟨e1, h⟩ := struct_inj delim_nat h
  obtain ⟨e2, h⟩ := field_inj delim_nat h
  obtain ⟨e3, h⟩ := field_inj delim_nat h
  exact ⟨by subst e1 e2 e3; rfl, List.append_cancel_left h⟩

end Dbg
end OnionPIR
