import Verif.Proofs.Pvw
/- Lemmas for C111. -/
namespace OnionPIR

section
variable {α β : Type} {f : α → β → Res α}

theorem zipMutM_take : ∀ (as : List α) (bs : List β), zipMutM f as (bs.take as.length) = zipMutM f as bs
  | [], bs => by cases bs <;> rfl
  | a :: as, [] => rfl
  | a :: as, b :: bs => by
    simp only [List.length_cons, List.take_succ_cons, zipMutM]
    rw [zipMutM_take as bs]

theorem zipMutM_pad {z : β} : ∀ (as : List α) (bs : List β) (k : Nat), (∀ a ∈ as, f a z = .ok a) →
    zipMutM f as (bs ++ List.replicate k z) = zipMutM f as bs
  | [], bs, k, _ => by cases h : bs ++ List.replicate k z <;> cases bs <;> rfl
  | a :: as, [], 0, _ => rfl
  | a :: as, [], k + 1, h => by
    have ih := zipMutM_pad as [] k fun x hx => h x (List.mem_cons_of_mem _ hx)
    simp only [List.nil_append] at ih ⊢
    rw [List.replicate_succ]
    simp only [zipMutM]
    rw [h a List.mem_cons_self, res_ok_bind, ih]
    cases as <;> rfl
  | a :: as, b :: bs, k, h => by
    have ih := zipMutM_pad as bs k fun x hx => h x (List.mem_cons_of_mem _ hx)
    simp only [List.cons_append, zipMutM]
    rw [ih]

theorem zipMutM_returns : ∀ (as : List α) (bs : List β), (∃ r, zipMutM f as bs = .ok r) ↔ ∀ x ∈ as.zip bs, ∃ y, f x.1 x.2 = .ok y
  | [], bs => by cases bs <;> exact ⟨fun _ x hx => absurd hx (by simp), fun _ => ⟨_, rfl⟩⟩
  | a :: as, [] => ⟨fun _ x hx => absurd hx (by simp), fun _ => ⟨_, rfl⟩⟩
  | a :: as, b :: bs => by
    have ih := zipMutM_returns as bs
    simp only [zipMutM, List.zip_cons_cons, List.forall_mem_cons]
    rw [← ih]
    constructor
    · rintro ⟨r, hr⟩
      obtain ⟨y, h1, h2⟩ := bind_eq_ok.mp hr
      obtain ⟨z, h3, -⟩ := bind_eq_ok.mp h2
      exact ⟨⟨y, h1⟩, z, h3⟩
    · rintro ⟨⟨y, h1⟩, z, h3⟩
      exact ⟨y :: z, by rw [h1, res_ok_bind, h3]; rfl⟩

end

namespace Pvw
variable {params : PvwParams} {q : Modulus}

/-- The accumulation loops of `encrypt` return canonical values. -/
theorem encrypt_state (hn : Modulus.new params.q = .ok q) (pr : Profile) {pk : PvwPk}
    (hpk : ∀ m, m < params.m → ∃ c, pk[m]? = some c ∧ Vec params.q params.n c.a ∧ Vec params.q params.ell c.b) {e : Nat → Nat} (he : ∀ m, e m < 2) :
    ∃ st, foldR (encryptStep pr params q pk e) (List.replicate params.ell 0, List.replicate params.n 0) (List.range params.m) = .ok st ∧
      Vec params.q params.ell st.1 ∧ Vec params.q params.n st.2 := by
  obtain ⟨h2, h62, hqp, hq⟩ := Modulus.new_inv hn
  have hp := hq.pos
  rw [← hqp] at hpk ⊢
  have vz : ∀ n, Vec q.p n (List.replicate n 0) := fun n => ⟨by simp, fun i hi => by
    rw [List.getD_eq_getElem _ _ (by simpa using hi), List.getElem_replicate]; exact hp⟩
  obtain ⟨st, h1, hb, ha⟩ := foldR_range_ok (f := encryptStep pr params q pk e) (n := params.m)
    (s := (List.replicate params.ell 0, List.replicate params.n 0))
    (fun k st => Vec q.p params.ell st.1 ∧ Vec q.p params.n st.2)
    ⟨vz _, vz _⟩
    (by
      rintro k ⟨b, a⟩ hk ⟨hb, ha⟩
      obtain ⟨c, c1, c2, c3⟩ := hpk k hk
      have hek : e k < q.p := by have := he k; have := hq.two_le; omega
      obtain ⟨b', d1, d2, d3⟩ := accStep_fold (comp := PvwCiphertext.b) hq pr c1 rfl c3 hb hek
      obtain ⟨a', f1, f2, f3⟩ := accStep_fold (comp := PvwCiphertext.a) hq pr c1 rfl c2 ha hek
      refine ⟨(b', a'), ?_, d2, f2⟩
      unfold encryptStep
      rw [d1, res_ok_bind, f1]; rfl)
  exact ⟨st, h1, hb, ha⟩

theorem dot_take (pr : Profile) (q : Modulus) (n : Nat) (sk : PvwSk) (l : Nat) (a : List Nat) : dot pr q n sk l (a.take n) = dot pr q n sk l a := by
  unfold dot
  have : ∀ (L : List Nat) (v : Nat), (∀ i ∈ L, i < n) → foldR (dotStep pr q sk l (a.take n)) v L = foldR (dotStep pr q sk l a) v L := by
    intro L
    induction L with
    | nil => intro v _; rfl
    | cons i L ih =>
      intro v h
      rw [foldR_cons, foldR_cons]
      have : dotStep pr q sk l (a.take n) v i = dotStep pr q sk l a v i := by
        unfold dotStep idx
        rw [List.getElem?_take, if_pos (h i List.mem_cons_self)]
      rw [this]
      cases dotStep pr q sk l a v i with
      | error p => rfl
      | ok w => exact ih w fun x hx => h x (List.mem_cons_of_mem _ hx)
  exact this _ _ fun i hi => List.mem_range.mp hi

/-- A returning inner product reads `n` entries. -/
theorem dot_needs {pr : Profile} {q : Modulus} {n : Nat} {sk : PvwSk} {l : Nat} {a : List Nat} {v : Nat} (h : dot pr q n sk l a = .ok v) : n ≤ a.length := by
  have := foldR_range_inv (f := dotStep pr q sk l a) (fun k _ => k ≤ a.length) h (Nat.zero_le _) (by
    intro i s s' _ _ hs
    unfold dotStep at hs
    obtain ⟨_, -, hs⟩ := bind_eq_ok.mp hs
    obtain ⟨_, -, hs⟩ := bind_eq_ok.mp hs
    obtain ⟨y, hy, -⟩ := bind_eq_ok.mp hs
    unfold idx at hy
    rcases lt_or_ge i a.length with hi | hi
    · exact hi
    · rw [List.getElem?_eq_none hi] at hy; cases hy)
  exact this

/-- A returning decryption needs `ell` entries of the second part and `n` of the first. -/
theorem decrypt_needs {pr : Profile} {sk : PvwSk} {ct : PvwCiphertext} {b : List Nat}
    (h : foldR (decryptStep pr params q sk ct.a) ct.b (List.range params.ell) = .ok b) :
    params.ell ≤ ct.b.length ∧ (params.ell = 0 ∨ params.n ≤ ct.a.length) := by
  have := foldR_range_inv (f := decryptStep pr params q sk ct.a)
    (fun k b => b.length = ct.b.length ∧ k ≤ ct.b.length ∧ (k = 0 ∨ params.n ≤ ct.a.length)) h ⟨rfl, Nat.zero_le _, .inl rfl⟩ (by
    rintro i s s' _ ⟨h1, h2, h3⟩ hs
    unfold decryptStep at hs
    obtain ⟨v, hv, hs⟩ := bind_eq_ok.mp hs
    obtain ⟨_, -, hs⟩ := bind_eq_ok.mp hs
    obtain ⟨w, -, hs⟩ := bind_eq_ok.mp hs
    split_ifs at hs with hi
    obtain rfl := Except.ok.inj hs
    exact ⟨by rw [List.length_set, h1], by omega, .inr (dot_needs hv)⟩)
  exact ⟨this.2.1, this.2.2⟩

/-- The phases of a clue with at least the needed entries; the other entries of the second part stay. -/
theorem decrypt_long (hn : Modulus.new params.q = .ok q) (pr : Profile) {sk : PvwSk}
    (hsk : ∀ l, l < params.ell → ∃ s, sk[l]? = some s ∧ Vec params.q params.n s)
    {ct : PvwCiphertext} (ha : params.ell = 0 ∨ Vec params.q params.n (ct.a.take params.n)) (hl : params.ell ≤ ct.b.length)
    (hb : ∀ x ∈ ct.b, x < params.q) {E : Nat → Int}
    (hE : ∀ l, l < params.ell → (ct.b.getD l 0 : ZMod params.q) =
      ∑ i ∈ Finset.range params.n, (((sk.getD l []).getD i 0 : Nat) : ZMod params.q) * (((ct.a.take params.n).getD i 0 : Nat) : ZMod params.q) + (E l : ZMod params.q)) :
    foldR (decryptStep pr params q sk ct.a) ct.b (List.range params.ell) =
      .ok ((List.range ct.b.length).map fun l => if l < params.ell then (E l % (params.q : Int)).toNat else ct.b.getD l 0) := by
  obtain ⟨h2, h62, hqp, hq⟩ := Modulus.new_inv hn
  have hp := hq.pos
  have hE' : ∀ l, (E l % (params.q : Int)).toNat < params.q := fun l => by
    have := Int.emod_lt_of_pos (E l) (show (0 : Int) < params.q by omega)
    omega
  obtain ⟨b, h1, hb1, hb2⟩ := foldR_range_ok (f := decryptStep pr params q sk ct.a) (n := params.ell) (s := ct.b)
    (fun k b => b.length = ct.b.length ∧ ∀ l, l < ct.b.length → b.getD l 0 = if l < k then (E l % (params.q : Int)).toNat else ct.b.getD l 0)
    ⟨rfl, by simp⟩
    (by
      rintro k b hk ⟨hb1, hb2⟩
      obtain ⟨s, s1, s2⟩ := hsk k hk
      rw [← hqp] at s2
      obtain ⟨v, d1, d2, d3⟩ := dot_ok hq pr s1 s2 (by rw [hqp]; exact ha.resolve_left (by omega))
      rw [dot_take] at d1
      have hbk : b.getD k 0 = ct.b.getD k 0 := by rw [hb2 k (by omega), if_neg (by omega)]
      have hlt : ct.b.getD k 0 < q.p := by
        rw [hqp, List.getD_eq_getElem _ _ (by omega)]; exact hb _ (List.getElem_mem _)
      refine ⟨b.set k (E k % (params.q : Int)).toNat, ?_, by simpa using hb1, ?_⟩
      · unfold decryptStep
        rw [d1, res_ok_bind, idx_getD 0 (by omega), res_ok_bind, hbk, Modulus.sub_ok hq pr hlt d2, res_ok_bind,
          if_pos (by omega)]
        congr 2
        rw [hqp] at d2 d3 hlt ⊢
        rw [← Nat.mod_eq_of_lt (hE' k)]
        apply (ZMod.natCast_eq_natCast_iff' _ _ _).mp
        rw [cast_emod (by omega), Nat.cast_add, Nat.cast_sub d2.le, ZMod.natCast_self, d3, hE k hk]
        simp only [List.getD, s1, Option.getD_some]
        ring
      · intro l hl
        rw [getD_set (by omega)]
        split_ifs with g1 g2 g2
        · rw [g1]
        · omega
        · rw [hb2 l hl, if_pos (by omega)]
        · rw [hb2 l hl, if_neg (by omega)])
  have hbe : b = (List.range ct.b.length).map fun l => if l < params.ell then (E l % (params.q : Int)).toNat else ct.b.getD l 0 := by
    apply List.ext_getElem (by simp [hb1])
    intro l g1 g2
    have := hb2 l (by omega)
    rw [List.getD_eq_getElem _ _ g1] at this
    rw [this, List.getElem_map, List.getElem_range]
  rw [h1, hbe]

end Pvw
end OnionPIR
