import Verif.Proofs.RqScaler
import Verif.Props.Ntt
import Verif.Spec.Rq
/-
Properties C20 to C26: polynomials modulo `X^N + 1` in residue form.
A context is any value returned by `RqContext::new`, for any outcome of the sampler inside `primitive_root`.
-/
namespace OnionPIR
open Rg Spec

/-- A context returned by `RqContext::new` for the moduli `l` and degree `N`. -/
def IsContext (N : Nat) (l : List Nat) (c : RqContext) : Prop :=
  N < 2 ^ 64 ∧ ∃ pr sample bd, (∀ p i, 0 < p → sample p i < p) ∧ RqContext.new pr sample l N bd = .ok c

namespace RqP

theorem ctx {N : Nat} {l : List Nat} {c : RqContext} (h : IsContext N l c) : ∃ K, N = 2 ^ K ∧ c.WF K ∧ c.moduli64 = l := by
  obtain ⟨hN, pr, sample, bd, hs, hc⟩ := h
  exact RqContext.new_wf hs hN hc

theorem rowsOf_enc {K : Nat} {c : RqContext} (h : c.WF K) (A : Nat → ℤ) :
    rowsOf c A = encRows c .powerBasis (ofCoeffs (2 ^ K) A) := by
  rw [encRows_power h, rowsOf, h.core.deg]
  apply List.map_congr_left
  intro q _
  apply List.map_congr_left
  intro k hk
  rw [cf_ofCoeffs (by positivity) _ (List.mem_range.mp hk)]

/-- What `Denotes` means in terms of encodings. -/
theorem denotes_iff {K : Nat} {c : RqContext} (h : c.WF K) {r : Representation} (hr : r ≠ .nttShoup) (A : Nat → ℤ) (p : Poly) :
    Denotes c r A p ↔ p = enc c r (ofCoeffs (2 ^ K) A) := by
  constructor
  · rintro ⟨rfl, rfl, hv, p', e1, e2⟩
    obtain ⟨f, f1, -⟩ := exists_enc h hr hv
    have h1 := Poly.change_enc h .debug f hr (show Representation.powerBasis ≠ .nttShoup by simp)
    rw [← f1, e1] at h1
    have h2 := Except.ok.inj h1
    rw [h2, rowsOf_enc h] at e2
    have h3 : enc p.context .powerBasis f = enc p.context .powerBasis (ofCoeffs (2 ^ K) A) := by
      unfold enc; congr 1
    rw [enc_eq_iff h] at h3
    rw [f1]
    exact enc_congr h h3
  · rintro rfl
    exact ⟨rfl, rfl, enc_valid h _ _, _, Poly.change_enc h .debug _ hr (show Representation.powerBasis ≠ .nttShoup by simp),
      (rowsOf_enc h A).symm⟩

theorem denotes_enc {K : Nat} {c : RqContext} (h : c.WF K) {r : Representation} (hr : r ≠ .nttShoup) (f : Rg (2 ^ K)) {A : Nat → ℤ}
    (hA : ∀ k, k < 2 ^ K → A k = cf f k) : Denotes c r A (enc c r f) := by
  rw [denotes_iff h hr]
  congr 1
  apply ext_cf (by positivity)
  intro k hk
  rw [cf_ofCoeffs (by positivity) _ hk, hA k hk]

end RqP

/-! ### Contexts -/

/-- `RqContext::new` succeeds for every nonempty list of distinct NTT-friendly primes below `2^62`, provided the sampler
inside `primitive_root` finds a quadratic non-residue within its 100 attempts for every prime. -/
theorem c20_context_exists (pr : Profile) {K : Nat} (hK : 3 ≤ K) (hK2 : K < 64) {l : List Nat} (hne : l ≠ []) (hnd : l.Nodup)
    (hp : ∀ q ∈ l, q.Prime ∧ q < 2 ^ 62 ∧ q % (2 * 2 ^ K) = 1) {sample : Nat → Nat → Nat} (hs : ∀ p i, 0 < p → sample p i < p)
    (hgood : ∀ q ∈ l, ∃ i, i < 100 ∧ sample q i ^ ((q - 1) / 2) % q = q - 1) (bd : BitDecomposition) :
    ∃ c, RqContext.new pr sample l (2 ^ K) bd = .ok c ∧ IsContext (2 ^ K) l c := by
  have key : ∀ n, ∀ l : List Nat, l.length = n → l ≠ [] → l.Nodup →
      (∀ q ∈ l, q.Prime ∧ q < 2 ^ 62 ∧ q % (2 * 2 ^ K) = 1) →
      (∀ q ∈ l, ∃ i, i < 100 ∧ sample q i ^ ((q - 1) / 2) % q = q - 1) →
      ∃ c, RqContext.newAux pr sample (2 ^ K) bd n l = .ok c := by
    intro n
    induction n with
    | zero => intro l hl hne; exact absurd (List.length_eq_zero_iff.mp hl) hne
    | succ n ih =>
      intro l hl hne hnd hp hgood
      have hcop : l.Pairwise Nat.Coprime := by
        refine List.Pairwise.imp_of_mem (R := (· ≠ ·)) ?_ hnd
        intro a b ha hb hab
        exact (Nat.coprime_primes (hp a ha).1 (hp b hb).1).mpr hab
      obtain ⟨rns, hr⟩ := RnsContext.new_ok (fun q hq => ⟨(hp q hq).1.two_le, (hp q hq).2.1⟩) hcop
      obtain ⟨hw, hml⟩ := RnsContext.new_wf hr
      have hops : ∃ ops, mapR (fun (m : Modulus) => NttOperator.new pr (sample m.p) m (2 ^ K)) rns.moduli = .ok ops := by
        have : ∀ ms : List Modulus, (∀ m ∈ ms, m.WF ∧ m.p ∈ l) →
            ∃ ops, mapR (fun (m : Modulus) => NttOperator.new pr (sample m.p) m (2 ^ K)) ms = .ok ops := by
          intro ms
          induction ms with
          | nil => intro _; exact ⟨[], rfl⟩
          | cons m ms ih =>
            intro hm
            obtain ⟨ops, ho⟩ := ih (fun m' hm' => hm m' (by simp [hm']))
            obtain ⟨hmw, hml⟩ := hm m (by simp)
            obtain ⟨hq1, hq2, hq3⟩ := hp _ hml
            obtain ⟨op, hop⟩ := ntt_new_succeeds hmw pr hq1 hK hq3 (fun i => hs m.p i hq1.pos) (hgood _ hml)
            exact ⟨op :: ops, by simp only [mapR, hop, ho, res_ok_bind]⟩
        apply this
        intro m hm
        refine ⟨hw.mods m hm, ?_⟩
        rw [← hml, ← hw.ps]; exact List.mem_map_of_mem hm
      obtain ⟨ops, hops⟩ := hops
      unfold RqContext.newAux
      rw [hr, res_ok_bind, hops, res_ok_bind]
      split_ifs with h2
      · have hdl := List.dropLast_eq_take (l := l)
        obtain ⟨next, hnext⟩ := ih (l.take (l.length - 1)) (by simp; omega) (by
            intro h0
            have := congrArg List.length h0
            simp at this; omega)
          (List.Nodup.sublist (List.take_sublist _ _) hnd) (fun q hq => hp q (List.mem_of_mem_take hq))
          (fun q hq => hgood q (List.mem_of_mem_take hq))
        rw [hnext, res_ok_bind, RqContext.finish_ok hw hml hne]
        exact ⟨_, rfl⟩
      · rw [RqContext.finish_ok hw hml hne]
        exact ⟨_, rfl⟩
  obtain ⟨c, hc⟩ := key _ l rfl hne hnd hp hgood
  exact ⟨c, hc, Nat.pow_lt_pow_right (by norm_num) hK2, pr, sample, bd, hs, hc⟩

/-! ### C20: representation changes -/

/-- A valid polynomial is the residue form of integers in `[0, Q)`, where `Q` is the product of the moduli. -/
theorem c20_denotes {N : Nat} {l : List Nat} {c : RqContext} (hc : IsContext N l c) {p : Poly} (hp : p.context = c)
    (hr : p.representation ≠ .nttShoup) (hv : ValidRows c p.coefficients) :
    ∃ A : Nat → ℤ, Denotes c p.representation A p ∧ ∀ k, k < N → 0 ≤ A k ∧ A k < l.prod := by
  obtain ⟨K, rfl, h, rfl⟩ := RqP.ctx hc
  subst hp
  obtain ⟨f, f1, f2⟩ := exists_enc h hr hv
  refine ⟨cf f, ?_, f2⟩
  have := RqP.denotes_enc h hr f (A := cf f) (fun _ _ => rfl)
  rwa [← f1] at this

/-- Two integer vectors denote the same polynomial exactly when they agree modulo `Q`. -/
theorem c20_denotes_unique {N : Nat} {l : List Nat} {c : RqContext} (hc : IsContext N l c) {r : Representation}
    (hr : r ≠ .nttShoup) {A B : Nat → ℤ} {p : Poly} (hp : Denotes c r A p) :
    Denotes c r B p ↔ ∀ k, k < N → A k ≡ B k [ZMOD l.prod] := by
  obtain ⟨K, rfl, h, rfl⟩ := RqP.ctx hc
  have hN : 0 < 2 ^ K := by positivity
  rw [RqP.denotes_iff h hr] at hp ⊢
  rw [hp, enc_eq_iff h, dvd_iff hN]
  constructor
  · intro h' k hk
    have := h' k hk
    rw [cf_sub hN, cf_ofCoeffs hN _ hk, cf_ofCoeffs hN _ hk] at this
    exact (Int.modEq_of_dvd this).symm
  · intro h' k hk
    rw [cf_sub hN, cf_ofCoeffs hN _ hk, cf_ofCoeffs hN _ hk]
    exact (h' k hk).symm.dvd

/-- Changing to the other representation and back gives the identical polynomial; neither step panics, the intermediate
value is stored canonically and denotes the same integers. -/
theorem c20_round_trip {N : Nat} {l : List Nat} {c : RqContext} (hc : IsContext N l c) (pr : Profile) {p : Poly}
    (hp : p.context = c) {r r' : Representation} (hr : r ≠ .nttShoup) (hr' : r' ≠ .nttShoup) (hpr : p.representation = r)
    (hv : ValidRows c p.coefficients) :
    ∃ p', p.changeRepresentation pr r' = .ok p' ∧ p'.context = c ∧ p'.representation = r' ∧ ValidRows c p'.coefficients ∧
      p'.changeRepresentation pr r = .ok p ∧ ∀ A, Denotes c r A p ↔ Denotes c r' A p' := by
  obtain ⟨K, rfl, h, rfl⟩ := RqP.ctx hc
  subst hp hpr
  obtain ⟨f, f1, -⟩ := exists_enc h hr hv
  refine ⟨enc p.context r' f, ?_, rfl, rfl, enc_valid h _ _, ?_, ?_⟩
  · conv_lhs => rw [f1]
    exact Poly.change_enc h pr f hr hr'
  · rw [Poly.change_enc h pr f hr' hr, ← f1]
  · intro A
    rw [RqP.denotes_iff h hr, RqP.denotes_iff h hr']
    have : p = enc p.context p.representation (ofCoeffs (2 ^ K) A) ↔
        enc p.context p.representation f = enc p.context p.representation (ofCoeffs (2 ^ K) A) := by rw [← f1]
    rw [this, enc_eq_iff h, enc_eq_iff h]

/-- Changing to the current representation is the identity. -/
theorem c20_same (pr : Profile) (p : Poly) (h : p.representation ≠ .nttShoup) :
    p.changeRepresentation pr p.representation = .ok p := by
  cases hr : p.representation <;> simp_all [Poly.changeRepresentation]

/-- Requesting `NttShoup` panics. -/
theorem c20_ntt_shoup (pr : Profile) (p : Poly) : p.changeRepresentation pr .nttShoup = .error .todo := by
  cases hr : p.representation <;> simp [Poly.changeRepresentation, hr]

/-! ### C21: ring operations -/

theorem c21_add {N : Nat} {l : List Nat} {c : RqContext} (hc : IsContext N l c) (pr : Profile) {a b : Poly} {A B : Nat → ℤ}
    (ha : Denotes c .ntt A a) (hb : Denotes c .ntt B b) :
    ∃ s, a.add pr b = .ok s ∧ Denotes c .ntt (fun k => A k + B k) s := by
  obtain ⟨K, rfl, h, rfl⟩ := RqP.ctx hc
  have hN : 0 < 2 ^ K := by positivity
  rw [RqP.denotes_iff h (by simp)] at ha hb
  subst ha hb
  refine ⟨_, Poly.add_enc h pr _ _, RqP.denotes_enc h (by simp) _ fun k hk => ?_⟩
  rw [cf_add hN, cf_ofCoeffs hN _ hk, cf_ofCoeffs hN _ hk]

theorem c21_sub {N : Nat} {l : List Nat} {c : RqContext} (hc : IsContext N l c) (pr : Profile) {a b : Poly} {A B : Nat → ℤ}
    (ha : Denotes c .ntt A a) (hb : Denotes c .ntt B b) :
    ∃ s, a.sub pr b = .ok s ∧ Denotes c .ntt (fun k => A k - B k) s := by
  obtain ⟨K, rfl, h, rfl⟩ := RqP.ctx hc
  have hN : 0 < 2 ^ K := by positivity
  rw [RqP.denotes_iff h (by simp)] at ha hb
  subst ha hb
  refine ⟨_, Poly.sub_enc h pr _ _, RqP.denotes_enc h (by simp) _ fun k hk => ?_⟩
  rw [cf_sub hN, cf_ofCoeffs hN _ hk, cf_ofCoeffs hN _ hk]

/-- Negation works in both representations. -/
theorem c21_neg {N : Nat} {l : List Nat} {c : RqContext} (hc : IsContext N l c) (pr : Profile) {r : Representation}
    (hr : r ≠ .nttShoup) {a : Poly} {A : Nat → ℤ} (ha : Denotes c r A a) :
    ∃ s, a.neg pr = .ok s ∧ Denotes c r (fun k => - A k) s := by
  obtain ⟨K, rfl, h, rfl⟩ := RqP.ctx hc
  have hN : 0 < 2 ^ K := by positivity
  rw [RqP.denotes_iff h hr] at ha
  subst ha
  refine ⟨_, Poly.neg_enc h pr _ r, RqP.denotes_enc h hr _ fun k hk => ?_⟩
  rw [cf_neg hN, cf_ofCoeffs hN _ hk]

/-- The product is the product of polynomials modulo `X^N + 1`. -/
theorem c21_mul {N : Nat} {l : List Nat} {c : RqContext} (hc : IsContext N l c) (pr : Profile) {a b : Poly} {A B : Nat → ℤ}
    (ha : Denotes c .ntt A a) (hb : Denotes c .ntt B b) :
    ∃ s, a.mul pr b = .ok s ∧ Denotes c .ntt (negacyclic N A B) s := by
  obtain ⟨K, rfl, h, rfl⟩ := RqP.ctx hc
  have hN : 0 < 2 ^ K := by positivity
  rw [RqP.denotes_iff h (by simp)] at ha hb
  subst ha hb
  refine ⟨_, Poly.mul_enc h pr _ _, RqP.denotes_enc h (by simp) _ fun k hk => ?_⟩
  rw [cf_mul hN _ _ hk]
  unfold negacyclic
  apply Finset.sum_congr rfl; intro i hi
  apply Finset.sum_congr rfl; intro j hj
  rw [cf_ofCoeffs hN _ (Finset.mem_range.mp hi), cf_ofCoeffs hN _ (Finset.mem_range.mp hj)]

/-- Multiplication by a natural number of any size. -/
theorem c21_mul_big {N : Nat} {l : List Nat} {c : RqContext} (hc : IsContext N l c) (pr : Profile) {a : Poly} {A : Nat → ℤ}
    (ha : Denotes c .ntt A a) (b : Nat) :
    ∃ s, a.mulBig pr b = .ok s ∧ Denotes c .ntt (fun k => b * A k) s := by
  obtain ⟨K, rfl, h, rfl⟩ := RqP.ctx hc
  have hN : 0 < 2 ^ K := by positivity
  rw [RqP.denotes_iff h (by simp)] at ha
  subst ha
  refine ⟨_, Poly.mulBig_enc h pr _ _, RqP.denotes_enc h (by simp) _ fun k hk => ?_⟩
  rw [mul_comm (ofCoeffs (2 ^ K) A), cf_int_mul hN, cf_ofCoeffs hN _ hk]

/-- Operands that are not in NTT form are rejected by all of them. -/
theorem c21_power_basis_panics (pr : Profile) (a b : Poly) (h : a.representation ≠ .ntt ∨ b.representation ≠ .ntt) :
    a.add pr b = .error .assert ∧ a.sub pr b = .error .assert ∧ a.mul pr b = .error .assert := by
  unfold Poly.add Poly.sub Poly.mul
  by_cases ha : a.representation = .ntt
  · have hb : b.representation ≠ .ntt := by tauto
    rw [rassert_ok ha, res_ok_bind, rassert_fail hb]; exact ⟨rfl, rfl, rfl⟩
  · rw [rassert_fail ha]; exact ⟨rfl, rfl, rfl⟩

/-! ### C22: substitution -/

theorem subst_eq {N : Nat} (hN : 0 < N) (k : Nat) (A : Nat → ℤ) {j : Nat} (hj : j < N) :
    Spec.subst N k A j = cf (sg k (ofCoeffs N A)) j := by
  rw [cf_sg hN, Spec.subst]
  apply Finset.sum_congr rfl
  intro i hi
  rw [cf_ofCoeffs hN _ (Finset.mem_range.mp hi)]
  generalize i * k = m
  have h1 := Nat.mod_lt m hN
  have h2 : m % (2 * N) = m % N + N * (m / N % 2) := by rw [Nat.mul_comm 2 N, Nat.mod_mul]
  rcases Nat.mod_two_eq_zero_or_one (m / N) with h | h
  · rw [h2, h, (Nat.even_iff.mpr h).neg_one_pow]
    simp only [Nat.mul_zero, Nat.add_zero, mul_one]
    split_ifs <;> first | rfl | omega
  · rw [h2, h, (Nat.odd_iff.mpr h).neg_one_pow]
    simp only [mul_neg, mul_one]
    split_ifs <;> first | rfl | omega

/-- For an odd exponent and a degree up to `2^31`, `substitute` maps `A(X)` to `A(X^k)` modulo `X^N + 1`, in power basis
and in NTT form. (Beyond `2^31` the accumulated power of the code can exceed 64 bits.) -/
theorem c22_substitute {N : Nat} {l : List Nat} {c : RqContext} (hc : IsContext N l c) (hN31 : N ≤ 2 ^ 31) (pr : Profile) {k : Nat}
    (hk : Odd k) {r : Representation} (hr : r ≠ .nttShoup) {a : Poly} {A : Nat → ℤ} (ha : Denotes c r A a) :
    ∃ s b, Substitution.new pr c k = .ok s ∧ a.substitute pr s = .ok b ∧ Denotes c r (Spec.subst N k A) b := by
  obtain ⟨K, rfl, h, rfl⟩ := RqP.ctx hc
  have hN : 0 < 2 ^ K := by positivity
  have hK : K ≤ 31 := (Nat.pow_le_pow_iff_right (by norm_num)).mp hN31
  rw [RqP.denotes_iff h hr] at ha
  subst ha
  have hs := Poly.substitution_new_ok h pr hK hk
  exact ⟨_, _, hs, Poly.substitute_enc h pr hK hk hs r _, RqP.denotes_enc h hr _ fun j hj => subst_eq hN k A hj⟩

/-- An even exponent is rejected. -/
theorem c22_even {N : Nat} {l : List Nat} {c : RqContext} (hc : IsContext N l c) (hN31 : N ≤ 2 ^ 31) (pr : Profile) {k : Nat}
    (hk : Even k) : Substitution.new pr c k = .error .assert := by
  obtain ⟨K, rfl, h, rfl⟩ := RqP.ctx hc
  exact Poly.substitution_new_even h pr ((Nat.pow_le_pow_iff_right (by norm_num)).mp hN31) hk

/-! ### C23: one modulus switch -/

/-- `mod_switch_down_next` divides every coefficient by the last modulus `q` and rounds to the nearest integer, in the context built from the remaining moduli. -/
theorem c23_switch {N : Nat} {l : List Nat} {q : Nat} {c : RqContext} (hc : IsContext N (l ++ [q]) c) (hl : l ≠ []) (pr : Profile)
    {a : Poly} {A : Nat → ℤ} (ha : Denotes c .powerBasis A a) :
    ∃ c' b B, c.nextCtx = some c' ∧ IsContext N l c' ∧ a.modSwitchDownNext pr = .ok b ∧ Denotes c' .powerBasis B b ∧
      ∀ k, k < N → 2 * |q * B k - A k| ≤ q ∧ B k = (A k + ((q / 2 : Nat) : ℤ)) / q := by
  obtain ⟨K, rfl, h, hm⟩ := RqP.ctx hc
  have hN : 0 < 2 ^ K := by positivity
  have hlen : 2 ≤ (l ++ [q]).length := by
    have := List.length_pos_of_ne_nil hl
    simp; omega
  obtain ⟨h64, pr', sample, bd, hs, hnew⟩ := hc
  obtain ⟨c', e1, e2⟩ := (RqContext.new_next hs h64 hnew).1 hlen
  rw [List.dropLast_concat] at e2
  have hc' : IsContext (2 ^ K) l c' := ⟨h64, pr', sample, bd, hs, e2⟩
  rw [RqP.denotes_iff h (by simp)] at ha
  subst ha
  have hg : c.moduli64.getLast h.core.ne = q := by
    have : ∀ l', l' = l ++ [q] → ∀ h', List.getLast l' h' = q := by rintro _ rfl _; simp
    exact this _ hm _
  refine ⟨c', _, fun k => Poly.rdiv (A k) q, e1, hc', Poly.modSwitch_enc h pr e1 _, ?_, ?_⟩
  · obtain ⟨h', -⟩ := h.next e1
    apply RqP.denotes_enc h' (by simp)
    intro k hk
    rw [cf_ofCoeffs hN _ hk, cf_ofCoeffs hN _ hk, hg]
  · intro k hk
    have hq : (2 : ℤ) ≤ q := by exact_mod_cast (h.bound (q := q) (by rw [hm]; simp)).1
    refine ⟨?_, rfl⟩
    unfold Poly.rdiv
    simp only
    have h1 := Int.emod_nonneg (A k + ((q / 2 : Nat) : ℤ)) (show (q : ℤ) ≠ 0 by omega)
    have h2 := Int.emod_lt_of_pos (A k + ((q / 2 : Nat) : ℤ)) (show (0 : ℤ) < q by omega)
    have h3 := Int.emod_add_mul_ediv (A k + ((q / 2 : Nat) : ℤ)) q
    have h4 : ((q / 2 : Nat) : ℤ) * 2 ≤ q ∧ (q : ℤ) ≤ ((q / 2 : Nat) : ℤ) * 2 + 1 := by omega
    generalize ((q / 2 : Nat) : ℤ) = hh at *
    generalize (A k + hh) / q = d at *
    generalize (q : ℤ) * d = w at *
    rcases abs_cases (w - A k) with ⟨e, -⟩ | ⟨e, -⟩ <;> rw [e] <;> omega

/-- On the last level the switch panics. -/
theorem c23_last_level {N : Nat} {q : Nat} {c : RqContext} (hc : IsContext N [q] c) (pr : Profile) {a : Poly} (ha : a.context = c) :
    a.modSwitchDownNext pr = .error .assert := by
  obtain ⟨h64, pr', sample, bd, hs, hnew⟩ := hc
  have := (RqContext.new_next hs h64 hnew).2 (by simp)
  unfold Poly.modSwitchDownNext
  rw [ha, this]

/-- A polynomial that is not in power basis is rejected. -/
theorem c23_ntt_panics (pr : Profile) {a : Poly} (ha : a.representation ≠ .powerBasis) :
    a.modSwitchDownNext pr = .error .assert := by
  unfold Poly.modSwitchDownNext
  split
  · rfl
  · rw [rassert_fail ha]; rfl

/-! ### C24: switching to a lower context -/

/-- The contexts reachable from `c` are exactly those built from prefixes of its moduli. -/
theorem c24_chain {pr' : Profile} {sample : Nat → Nat → Nat} (hs : ∀ p i, 0 < p → sample p i < p) {N : Nat} (hN : N < 2 ^ 64)
    {bd : BitDecomposition} {l : List Nat} {c : RqContext} (hc : RqContext.new pr' sample l N bd = .ok c) (tgt : RqContext) (k : Nat) :
    c.switchIterations tgt = some k ↔ k < l.length ∧ RqContext.new pr' sample (l.take (l.length - k)) N bd = .ok tgt := by
  obtain ⟨K, rfl, h, rfl⟩ := RqContext.new_wf hs hN hc
  rw [RqContext.switchIterations_iff h]
  have key : ∀ k (c : RqContext), RqContext.new pr' sample c.moduli64 (2 ^ K) bd = .ok c → c.WF K → ∀ d, c.down k = some d →
      RqContext.new pr' sample (c.moduli64.take (c.moduli64.length - k)) (2 ^ K) bd = .ok d := by
    intro k
    induction k with
    | zero =>
      intro c hc _ d hd
      simp only [RqContext.down, Option.some.injEq] at hd
      subst hd
      simpa using hc
    | succ k ih =>
      intro c hc h d hd
      simp only [RqContext.down, Option.bind_eq_some_iff] at hd
      obtain ⟨e, he, hd⟩ := hd
      obtain ⟨hw, hm⟩ := h.next he
      have h2 := h.next_isSome.mp (by rw [he]; rfl)
      obtain ⟨c', e1, e2⟩ := (RqContext.new_next hs hN hc).1 h2
      rw [e1] at he
      obtain rfl := Option.some.inj he
      rw [← hm] at e2
      have := ih c' e2 hw d hd
      rw [hm, List.length_dropLast, List.dropLast_eq_take, List.take_take] at this
      rwa [show min (c.moduli64.length - 1 - k) (c.moduli64.length - 1) = c.moduli64.length - (k + 1) by omega] at this
  constructor
  · intro hd
    exact ⟨(RqContext.down_moduli h hd).2.2, key k c hc h _ hd⟩
  · rintro ⟨hk, hn⟩
    obtain ⟨d, hd⟩ := RqContext.down_exists h hk
    have := key k c hc h d hd
    rw [hn] at this
    rw [hd, Except.ok.inj this]

/-- The roundings performed when the moduli `qs` are dropped, first to last. -/
def roundSeq : List Nat → (Nat → ℤ) → Nat → ℤ
  | [], A => A
  | q :: qs, A => roundSeq qs fun k => (A k + ((q / 2 : Nat) : ℤ)) / (q : ℤ)

theorem roundSeq_append (a b : List Nat) (A : Nat → ℤ) : roundSeq (a ++ b) A = roundSeq b (roundSeq a A) := by
  induction a generalizing A with
  | nil => rfl
  | cons q a ih => simp [roundSeq, ih]

theorem modSwitch_down {K : Nat} (pr : Profile) (k : Nat) {c d : RqContext} (h : c.WF K) (hd : c.down k = some d) (A : Nat → ℤ) (n : Nat) :
    ∃ B : Nat → ℤ, (∀ j, j < 2 ^ K → B j = roundSeq (c.moduli64.reverse.take k) A j) ∧
    foldR (fun p _ => Poly.modSwitchDownNext pr p) (enc c .powerBasis (ofCoeffs (2 ^ K) A)) (List.range' n k) =
      .ok (enc d .powerBasis (ofCoeffs (2 ^ K) B)) := by
  have hN : 0 < 2 ^ K := by positivity
  induction k generalizing c A n with
  | zero =>
    simp only [RqContext.down, Option.some.injEq] at hd
    subst hd
    exact ⟨A, fun _ _ => rfl, rfl⟩
  | succ k ih =>
    simp only [RqContext.down, Option.bind_eq_some_iff] at hd
    obtain ⟨e, he, hd⟩ := hd
    obtain ⟨hw, hm⟩ := h.next he
    have hne := h.core.ne
    obtain ⟨B, b1, b2⟩ := ih hw hd (fun j => Poly.rdiv (A j) (c.moduli64.getLast hne)) (n + 1)
    refine ⟨B, ?_, ?_⟩
    · intro j hj
      have : c.moduli64.reverse = c.moduli64.getLast hne :: c.moduli64.dropLast.reverse := by
        conv_lhs => rw [← List.dropLast_append_getLast hne, List.reverse_append]
        rfl
      rw [b1 j hj, this, List.take_succ_cons, roundSeq, hm]
      rfl
    · rw [List.range'_succ, foldR, Poly.modSwitch_enc h pr he, res_ok_bind, ← b2]
      congr 2
      apply ext_cf hN
      intro j hj
      rw [cf_ofCoeffs hN _ hj, cf_ofCoeffs hN _ hj, cf_ofCoeffs hN _ hj]

/-- `mod_switch_to` drops the last `k` moduli one after the other, rounding each time, and ends in the target. -/
theorem c24_switch_to {N : Nat} {l : List Nat} {c tgt : RqContext} (hc : IsContext N l c) (pr : Profile) {k : Nat}
    (ht : c.switchIterations tgt = some k) {a : Poly} {A : Nat → ℤ} (ha : Denotes c .powerBasis A a) :
    ∃ b, a.modSwitchTo pr tgt = .ok b ∧ Denotes tgt .powerBasis (roundSeq (l.reverse.take k) A) b ∧
      tgt.moduli64 = l.take (l.length - k) := by
  obtain ⟨K, rfl, h, rfl⟩ := RqP.ctx hc
  rw [RqP.denotes_iff h (by simp)] at ha
  subst ha
  have hd := (RqContext.switchIterations_iff h tgt k).mp ht
  obtain ⟨hw, hm, -⟩ := RqContext.down_moduli h hd
  obtain ⟨B, b1, b2⟩ := modSwitch_down pr k h hd A 0
  refine ⟨enc tgt .powerBasis (ofCoeffs (2 ^ K) B), ?_, RqP.denotes_enc hw (by simp) _ fun j hj => ?_, hm⟩
  · unfold Poly.modSwitchTo
    rw [show (enc c .powerBasis (ofCoeffs (2 ^ K) A)).context = c from rfl, ht, unwrapR, res_ok_bind, List.range_eq_range', b2]
  · rw [cf_ofCoeffs (by positivity) _ hj, b1 j hj]

/-- A target that is not in the chain panics. -/
theorem c24_unreachable (pr : Profile) {a : Poly} {tgt : RqContext} (ht : a.context.switchIterations tgt = none) :
    a.modSwitchTo pr tgt = .error .unwrap := by
  unfold Poly.modSwitchTo
  rw [ht]; rfl

/-! ### C25: import and export -/

/-- Unsigned import: the given words, then zeros. -/
theorem c25_from_u64 {N : Nat} {l : List Nat} {c : RqContext} (hc : IsContext N l c) (pr : Profile) {a : List Nat}
    (hlen : a.length ≤ N) (hb : ∀ x ∈ a, x < 2 ^ 64) :
    ∃ p, Poly.tryFromVecU64 pr c a = .ok p ∧ Denotes c .powerBasis (fun k => (a.getD k 0 : ℤ)) p := by
  obtain ⟨K, rfl, h, rfl⟩ := RqP.ctx hc
  have hN : 0 < 2 ^ K := by positivity
  refine ⟨_, Poly.tryFromVecU64_ok h pr hlen hb, RqP.denotes_enc h (by simp) _ fun k hk => ?_⟩
  rw [Poly.ofList, cf_ofCoeffs hN _ hk]
  by_cases hka : k < a.length <;> simp [List.getD, hka]

/-- Signed import. -/
theorem c25_from_i64 {N : Nat} {l : List Nat} {c : RqContext} (hc : IsContext N l c) (pr : Profile) {a : List ℤ}
    (hlen : a.length ≤ N) (hb : ∀ x ∈ a, -2 ^ 63 ≤ x ∧ x < 2 ^ 63) :
    ∃ p, Poly.tryFromVecI64 pr c a = .ok p ∧ Denotes c .powerBasis (fun k => a.getD k 0) p := by
  obtain ⟨K, rfl, h, rfl⟩ := RqP.ctx hc
  have hN : 0 < 2 ^ K := by positivity
  refine ⟨_, Poly.tryFromVecI64_ok h pr hlen hb, RqP.denotes_enc h (by simp) _ fun k hk => ?_⟩
  rw [Poly.ofList, cf_ofCoeffs hN _ hk]

/-- Import of integers of any size. -/
theorem c25_from_bigint {N : Nat} {l : List Nat} {c : RqContext} (hc : IsContext N l c) {a : List Nat} (hlen : a.length ≤ N) :
    ∃ p, Poly.tryFromBigint c a = .ok p ∧ Denotes c .powerBasis (fun k => (a.getD k 0 : ℤ)) p := by
  obtain ⟨K, rfl, h, rfl⟩ := RqP.ctx hc
  have hN : 0 < 2 ^ K := by positivity
  refine ⟨_, Poly.tryFromBigint_ok h hlen, RqP.denotes_enc h (by simp) _ fun k hk => ?_⟩
  rw [Poly.ofList, cf_ofCoeffs hN _ hk]
  by_cases hka : k < a.length <;> simp [List.getD, hka]

/-- Export of a power-basis polynomial: the residues in `[0, Q)`. -/
theorem c25_export {N : Nat} {l : List Nat} {c : RqContext} (hc : IsContext N l c) {p : Poly} {A : Nat → ℤ}
    (hp : Denotes c .powerBasis A p) :
    p.toBigUints = .ok ((List.range N).map fun k => (A k % (l.prod : ℤ)).toNat) := by
  obtain ⟨K, rfl, h, rfl⟩ := RqP.ctx hc
  have hN : 0 < 2 ^ K := by positivity
  rw [RqP.denotes_iff h (by simp)] at hp
  subst hp
  rw [Poly.toBigUints_enc h, rowP]
  congr 1
  apply List.map_congr_left
  intro k hk
  rw [cf_ofCoeffs hN _ (List.mem_range.mp hk), RqContext.Q]

/-- Export to words: for a context of one modulus the residues themselves; a context of several moduli panics. -/
theorem c25_to_u64 {N : Nat} {l : List Nat} {c : RqContext} (hc : IsContext N l c) {p : Poly} {A : Nat → ℤ}
    (hp : Denotes c .powerBasis A p) :
    (∀ q, l = [q] → p.toU64s = .ok ((List.range N).map fun k => (A k % (q : ℤ)).toNat)) ∧ (l.length ≠ 1 → p.toU64s = .error .assert) := by
  obtain ⟨K, rfl, h, rfl⟩ := RqP.ctx hc
  have hN : 0 < 2 ^ K := by positivity
  rw [RqP.denotes_iff h (by simp)] at hp
  subst hp
  constructor
  · intro q hl
    unfold Poly.toU64s
    rw [rassert_ok (show (enc c .powerBasis (ofCoeffs (2 ^ K) A)).context.moduli64.length = 1 by
      show c.moduli64.length = 1
      rw [hl]; rfl), res_ok_bind]
    have hQ : c.Q = q := by rw [RqContext.Q, hl]; simp
    have hq : 0 < q ∧ q < 2 ^ 62 := by
      have hmem : q ∈ c.moduli64 := by rw [hl]; simp
      rw [h.core.m64, ← h.core.rns.ps, ← h.core.mods] at hmem
      obtain ⟨m, hm, hmq⟩ := List.mem_map.mp hmem
      have := h.core.mod_wf hm
      exact ⟨by rw [← hmq]; exact this.pos, by rw [← hmq]; exact this.lt⟩
    rw [show (enc c .powerBasis (ofCoeffs (2 ^ K) A)).context = c from rfl, h.core.deg]
    apply mapR_ok
    intro j hj
    rw [Poly.column_enc h _ (List.mem_range.mp hj), res_ok_bind, Poly.lift_column h, res_ok_bind, hQ,
      cf_ofCoeffs hN _ (List.mem_range.mp hj)]
    unfold toU64R
    rw [if_pos]
    · rfl
    · have h1 := Int.emod_lt_of_pos (A j) (show (0 : ℤ) < q by exact_mod_cast hq.1)
      have h2 := Int.emod_nonneg (A j) (show (q : ℤ) ≠ 0 by have := hq.1; positivity)
      have := hq.2
      omega
  · intro hl
    unfold Poly.toU64s
    rw [rassert_fail]
    · rfl
    · exact hl

/-- Import followed by export. -/
theorem c25_round_trip {N : Nat} {l : List Nat} {c : RqContext} (hc : IsContext N l c) {a : List Nat} (hlen : a.length ≤ N) :
    ∃ p, Poly.tryFromBigint c a = .ok p ∧ p.toBigUints = .ok ((List.range N).map fun k => a.getD k 0 % l.prod) := by
  obtain ⟨p, e1, e2⟩ := c25_from_bigint hc hlen
  refine ⟨p, e1, ?_⟩
  rw [c25_export hc e2]
  rfl

/-- Vectors longer than the degree are rejected. -/
theorem c25_too_long {N : Nat} {l : List Nat} {c : RqContext} (hc : IsContext N l c) (pr : Profile) :
    (∀ a : List Nat, N < a.length → (∀ x ∈ a, x < 2 ^ 64) → Poly.tryFromVecU64 pr c a = .error .bounds) ∧
    (∀ a : List ℤ, N < a.length → (∀ x ∈ a, -2 ^ 63 ≤ x ∧ x < 2 ^ 63) → Poly.tryFromVecI64 pr c a = .error .bounds) ∧
    (∀ a : List Nat, N < a.length → Poly.tryFromBigint c a = .error .bounds) := by
  obtain ⟨K, rfl, h, rfl⟩ := RqP.ctx hc
  refine ⟨fun a ha hb => ?_, fun a ha hb => ?_, fun a ha => ?_⟩
  · refine Poly.fromRows_long h ha (fun m x => x % m.p) fun m hm => ?_
    exact mapR_ok fun x hx => Modulus.reduce_ok (h.core.mod_wf hm) pr (hb x hx)
  · refine Poly.fromRows_long h ha (fun m x => (x % (m.p : ℤ)).toNat) fun m hm => ?_
    exact mapR_ok fun x hx => Modulus.reduceI64_ok (h.core.mod_wf hm) pr (hb x hx).1 (hb x hx).2
  · refine Poly.fromRows_long h ha (fun m x => x % m.p) fun m hm => ?_
    exact mapR_ok fun x hx => Modulus.reduceBigUint_ok (h.core.mod_wf hm) x

/-! ### C26: scaling by one -/

/-- Scaling by one between contexts of the same degree, when the positions at which the two lists of moduli agree form a
prefix: the result holds the residues, modulo every target modulus, of integers `B k` that are congruent to the input
modulo `Q` and centered up to the precision of the scaler. What is missing from C26: without the prefix hypothesis the
statement is false (`c26_not_prefix`). -/
theorem c26_scale_one_partial {N : Nat} {l l' : List Nat} {src dst : RqContext} (hs : IsContext N l src) (hd : IsContext N l' dst)
    (hlen : l.length < 2 ^ 62) (pr : Profile) {n : Nat} (hn : 0 < n) {sf : ScalingFactor} (hsf : ScalingFactor.new n n = .ok sf)
    {m : Nat} (hpre : l.take m = l'.take m) (hpost : ∀ i, m ≤ i → i < l.length → i < l'.length → l.getD i 0 ≠ l'.getD i 0)
    {B : Nat} (hB : ∀ q ∈ l, l.length * q ≤ B) {r : Representation} (hr : r ≠ .nttShoup) {a : Poly} {A : Nat → ℤ}
    (ha : Denotes src r A a) :
    ∃ s b C, RqScaler.new pr src dst sf = .ok s ∧ s.scale pr a = .ok b ∧ Denotes dst r C b ∧
      ∀ k, k < N → C k ≡ A k [ZMOD l.prod] ∧ 2 ^ 191 * |C k| ≤ l.prod * (2 ^ 190 + B * max B (2 ^ 63)) := by
  obtain ⟨K, rfl, h, rfl⟩ := RqP.ctx hs
  obtain ⟨K', hK', h', rfl⟩ := RqP.ctx hd
  have := Nat.pow_right_injective (le_refl 2) hK'
  subst this
  have hN : 0 < 2 ^ K := by positivity
  have : sf = ⟨n, n, decide (n = n)⟩ := by
    unfold ScalingFactor.new at hsf
    rw [rassert_ok (by omega)] at hsf
    exact (Except.ok.inj hsf).symm
  subst this
  rw [RqP.denotes_iff h hr] at ha
  subst ha
  obtain ⟨s, es, -⟩ := RqScaler.new_ok h h' pr hlen (sf := ⟨n, n, decide (n = n)⟩) hn
  have hcc : ∀ i, i < RqScaler.countCommon src.moduli64 dst.moduli64 0 → src.moduli64.getD i 0 = dst.moduli64.getD i 0 := by
    have key : ∀ (m : Nat) (a b : List Nat) (acc : Nat), a.take m = b.take m →
        (∀ i, m ≤ i → i < a.length → i < b.length → a.getD i 0 ≠ b.getD i 0) →
        RqScaler.countCommon a b acc ≤ acc + m := by
      intro m
      induction m with
      | zero =>
        intro a b acc _ hp
        rw [RqScaler.countCommon_disjoint a b (fun i => hp i (by omega))]
        omega
      | succ m ih =>
        intro a b acc ht hp
        cases a with
        | nil => simp [RqScaler.countCommon]
        | cons x a =>
          cases b with
          | nil => simp [RqScaler.countCommon]
          | cons y b =>
            rw [List.take_succ_cons, List.take_succ_cons, List.cons.injEq] at ht
            unfold RqScaler.countCommon
            rw [if_pos ht.1]
            have := ih a b (acc + 1) ht.2 (fun i h1 h2 h3 => by
              simpa using hp (i + 1) (by omega) (by simpa using h2) (by simpa using h3))
            omega
    intro i hi
    have := key m _ _ 0 hpre hpost
    have h1 : (src.moduli64.take m).getD i 0 = (dst.moduli64.take m).getD i 0 := by rw [hpre]
    have him : i < m := by omega
    simpa [List.getD, List.getElem?_take, him] using h1
  obtain ⟨x, y, e1, e2, e3⟩ := RqScaler.scale_enc h h' pr hlen hn es (Or.inl (dvd_mul_right _ _)) (fun _ => hcc) hB
    (ofCoeffs (2 ^ K) A)
  have hfin : ∀ k, k < 2 ^ K → y k ≡ A k [ZMOD src.moduli64.prod] ∧
      2 ^ 191 * |y k| ≤ src.moduli64.prod * (2 ^ 190 + B * max B (2 ^ 63)) := by
    intro k hk
    obtain ⟨g1, g2, -, g4⟩ := e1 k hk
    rw [g4 rfl]
    rw [cf_ofCoeffs hN _ hk] at g1
    exact ⟨(Int.modEq_of_dvd g1).symm, g2⟩
  have hden : Denotes dst r y (enc dst r (ofCoeffs (2 ^ K) y)) := by rw [RqP.denotes_iff h' hr]
  cases r with
  | nttShoup => exact absurd rfl hr
  | powerBasis => exact ⟨s, _, y, es, e2, hden, hfin⟩
  | ntt => exact ⟨s, _, y, es, e3, hden, hfin⟩

/-- The sampler used in the examples. -/
def exSample (p i : Nat) : Nat := (i + 2) % p

theorem exSample_lt (p i : Nat) (hp : 0 < p) : exSample p i < p := Nat.mod_lt _ hp

/-- The run of the counterexample: contexts `[97, 17]` and `[113, 17]`, the constant polynomial 100, scaled by one. -/
def notPrefixRun : Res (RqContext × RqContext × RqScaler × Poly × Poly) := do
  let src ← RqContext.new .debug exSample [97, 17] 8 ⟨1, 1⟩
  let dst ← RqContext.new .debug exSample [113, 17] 8 ⟨1, 1⟩
  let sf ← ScalingFactor.new 1 1
  let s ← RqScaler.new .debug src dst sf
  let a ← Poly.tryFromVecU64 .debug src [100]
  let b ← s.scale .debug a
  .ok (src, dst, s, a, b)

def notPrefixCheck : Res (RqContext × RqContext × RqScaler × Poly × Poly) → Bool
  | .ok (_, dst, _, _, b) => dst.moduli64 == [113, 17] && dst.degree == 8 && (b.coefficients.getD 0 []).getD 0 0 == 3 &&
      decide (b.representation = .powerBasis)
  | .error _ => false

/-- C26 fails for the bases `[97, 17]` and `[113, 17]`: they agree at the second position only, the code counts one common
modulus and copies the first row, so the constant polynomial 100 becomes 3 modulo 113. The result is the residue form of
no vector congruent to the input modulo `Q = 1649` with entries below `Q` in absolute value. -/
theorem c26_not_prefix : ∃ src dst sf s a b, IsContext 8 [97, 17] src ∧ IsContext 8 [113, 17] dst ∧
    ScalingFactor.new 1 1 = .ok sf ∧ RqScaler.new .debug src dst sf = .ok s ∧
    Poly.tryFromVecU64 .debug src [100] = .ok a ∧ s.scale .debug a = .ok b ∧ dst.moduli64 = [113, 17] ∧
    ¬ ∃ C : Nat → ℤ, Denotes dst .powerBasis C b ∧ C 0 ≡ 100 [ZMOD 1649] ∧ |C 0| < 1649 := by
  have hrun : notPrefixCheck notPrefixRun = true := by decide +kernel
  have hex : ∃ v, notPrefixRun = .ok v := by
    cases h : notPrefixRun with
    | error e => rw [h] at hrun; simp [notPrefixCheck] at hrun
    | ok v => exact ⟨v, rfl⟩
  obtain ⟨⟨src, dst, s, a, b⟩, hv⟩ := hex
  rw [hv] at hrun
  unfold notPrefixRun at hv
  simp only [bind_eq_ok] at hv
  obtain ⟨src', h1, dst', h2, sf, h3, s', h4, a', h5, b', h6, h7⟩ := hv
  cases h7
  simp only [notPrefixCheck, Bool.and_eq_true, beq_iff_eq, decide_eq_true_eq] at hrun
  obtain ⟨⟨⟨r1, r2⟩, r3⟩, r4⟩ := hrun
  refine ⟨src, dst, sf, s, a, b, ⟨by norm_num, _, exSample, _, exSample_lt, h1⟩, ⟨by norm_num, _, exSample, _, exSample_lt, h2⟩,
    h3, h4, h5, h6, r1, ?_⟩
  rintro ⟨C, ⟨d1, d2, d3, p', d4, d5⟩, c1, c2⟩
  have hp := c20_same .debug b (by rw [r4]; simp)
  rw [r4, d4] at hp
  obtain rfl := Except.ok.inj hp
  rw [d5] at r3
  unfold rowsOf at r3
  rw [r1, r2] at r3
  have r3' : (C 0 % 113).toNat = 3 := r3
  have c1' : C 0 % 1649 = 100 := c1
  rw [abs_lt] at c2
  omega

/-- Non-vacuity: a context with two moduli and a polynomial in either representation that denotes given integers. -/
theorem exists_context : ∃ c, IsContext 8 [17, 97] c := by
  obtain ⟨c, -, hc⟩ := c20_context_exists .debug (K := 3) (by norm_num) (by norm_num) (l := [17, 97]) (by simp) (by decide)
    (by intro q hq; fin_cases hq <;> norm_num) exSample_lt
    (by
      intro q hq
      fin_cases hq
      · exact ⟨1, by decide⟩
      · exact ⟨3, by decide⟩) ⟨1, 1⟩
  exact ⟨c, hc⟩

example : ∃ c p q, IsContext 8 [17, 97] c ∧ Denotes c .powerBasis (fun k => ([-3, 5, 1000, 0, 7, 1, 2, -9] : List ℤ).getD k 0) p ∧
    Denotes c .ntt (fun k => ([-3, 5, 1000, 0, 7, 1, 2, -9] : List ℤ).getD k 0) q ∧ c.nextCtx.isSome := by
  obtain ⟨c, hc⟩ := exists_context
  obtain ⟨p, -, hp⟩ := c25_from_i64 hc .debug (a := [-3, 5, 1000, 0, 7, 1, 2, -9]) (by simp) (by
    intro x hx; fin_cases hx <;> norm_num)
  obtain ⟨q, -, -, -, -, -, hq⟩ := c20_round_trip hc .debug hp.1 (r' := .ntt) (by simp) (by simp) hp.2.1 hp.2.2.1
  refine ⟨c, p, q, hc, hp, (hq _).mp hp, ?_⟩
  obtain ⟨K, -, h, hm⟩ := RqP.ctx hc
  rw [h.next_isSome, hm]; simp

/-- Non-vacuity of C26: bases sharing a proper prefix. -/
example : ([17, 97] : List Nat).take 1 = [17, 113].take 1 ∧
    ∀ i, 1 ≤ i → i < 2 → i < 2 → ([17, 97] : List Nat).getD i 0 ≠ ([17, 113] : List Nat).getD i 0 := by
  refine ⟨by decide, fun i h1 h2 _ => ?_⟩
  interval_cases i; decide

/-- C20, C21, C22 and C25 chained: `1 + 2X` and `3 - X^7` imported, transformed, combined and exported. The expected lists are worked out by hand
(`(1 + 2X)(3 - X^7) = 5 + 6X - X^7` as `X^8 = -1`, and `Q = 1649`). -/
example : ∃ c a b a' b' s d n m g sub t, IsContext 8 [17, 97] c ∧ Poly.tryFromVecU64 .debug c [1, 2] = .ok a ∧
    Poly.tryFromVecI64 .debug c [3, 0, 0, 0, 0, 0, 0, -1] = .ok b ∧
    a.changeRepresentation .debug .ntt = .ok a' ∧ b.changeRepresentation .debug .ntt = .ok b' ∧
    a'.add .debug b' = .ok s ∧ a'.sub .debug b' = .ok d ∧ a'.neg .debug = .ok n ∧ a'.mul .debug b' = .ok m ∧ a'.mulBig .debug 1000 = .ok g ∧
    Substitution.new .debug c 3 = .ok sub ∧ b'.substitute .debug sub = .ok t ∧
    (∃ x, s.changeRepresentation .debug .powerBasis = .ok x ∧ x.toBigUints = .ok [4, 2, 0, 0, 0, 0, 0, 1648]) ∧
    (∃ x, d.changeRepresentation .debug .powerBasis = .ok x ∧ x.toBigUints = .ok [1647, 2, 0, 0, 0, 0, 0, 1]) ∧
    (∃ x, n.changeRepresentation .debug .powerBasis = .ok x ∧ x.toBigUints = .ok [1648, 1647, 0, 0, 0, 0, 0, 0]) ∧
    (∃ x, m.changeRepresentation .debug .powerBasis = .ok x ∧ x.toBigUints = .ok [5, 6, 0, 0, 0, 0, 0, 1648]) ∧
    (∃ x, g.changeRepresentation .debug .powerBasis = .ok x ∧ x.toBigUints = .ok [1000, 351, 0, 0, 0, 0, 0, 0]) ∧
    (∃ x, t.changeRepresentation .debug .powerBasis = .ok x ∧ x.toBigUints = .ok [3, 0, 0, 0, 0, 1648, 0, 0]) ∧
    a.toU64s = .error .assert ∧ a.add .debug b' = .error .assert ∧ a'.modSwitchDownNext .debug = .error .assert := by
  obtain ⟨c, hc⟩ := exists_context
  obtain ⟨a, ea, ha⟩ := c25_from_u64 hc .debug (a := [1, 2]) (by simp) (by simp)
  obtain ⟨b, eb, hb⟩ := c25_from_i64 hc .debug (a := [3, 0, 0, 0, 0, 0, 0, -1]) (by simp) (by simp)
  obtain ⟨a', ea', -, ra', -, -, ha'⟩ := c20_round_trip hc .debug ha.1 (r' := .ntt) (by simp) (by simp) ha.2.1 ha.2.2.1
  obtain ⟨b', eb', -, -, -, -, hb'⟩ := c20_round_trip hc .debug hb.1 (r' := .ntt) (by simp) (by simp) hb.2.1 hb.2.2.1
  have ha' := (ha' _).mp ha
  have hb' := (hb' _).mp hb
  have out : ∀ {x : Poly} {A : Nat → ℤ} {e : List Nat}, Denotes c .ntt A x →
      ((List.range 8).map fun k => (A k % ((17 * (97 * 1) : Nat) : ℤ)).toNat) = e →
      ∃ y, x.changeRepresentation .debug .powerBasis = .ok y ∧ y.toBigUints = .ok e := by
    intro x A e hx he
    obtain ⟨y, ey, -, -, -, -, hy⟩ := c20_round_trip hc .debug hx.1 (r' := .powerBasis) (by simp) (by simp) hx.2.1 hx.2.2.1
    exact ⟨y, ey, by rw [← he]; exact c25_export hc ((hy _).mp hx)⟩
  obtain ⟨s, es, hs⟩ := c21_add hc .debug ha' hb'
  obtain ⟨d, ed, hd⟩ := c21_sub hc .debug ha' hb'
  obtain ⟨n, en, hn⟩ := c21_neg hc .debug (by simp) ha'
  obtain ⟨m, em, hm⟩ := c21_mul hc .debug ha' hb'
  obtain ⟨g, eg, hg⟩ := c21_mul_big hc .debug ha' 1000
  obtain ⟨sub, t, e1, e2, ht⟩ := c22_substitute hc (by norm_num) .debug (k := 3) (by decide) (by simp) hb'
  exact ⟨c, a, b, a', b', s, d, n, m, g, sub, t, hc, ea, eb, ea', eb', es, ed, en, em, eg, e1, e2,
    out hs (by decide +kernel), out hd (by decide +kernel), out hn (by decide +kernel), out hm (by decide +kernel), out hg (by decide +kernel),
    out ht (by decide +kernel), (c25_to_u64 hc ha).2 (by simp), (c21_power_basis_panics .debug a b' (.inl (by rw [ha.2.1]; simp))).1,
    c23_ntt_panics .debug (by rw [ra']; simp)⟩

/-- C23, C24 and C25 at the second level: `100, 48, 49, -100` over `17 · 97` become `1, 0, 1, -1` over `17`, and no further switch is possible. -/
example : ∃ c c' a b x, IsContext 8 [17, 97] c ∧ IsContext 8 [17] c' ∧ Poly.tryFromVecI64 .debug c [100, 48, 49, -100] = .ok a ∧
    a.modSwitchDownNext .debug = .ok b ∧ b.toU64s = .ok [1, 0, 1, 16, 0, 0, 0, 0] ∧ b.modSwitchDownNext .debug = .error .assert ∧
    c.switchIterations c' = some 1 ∧ a.modSwitchTo .debug c' = .ok x ∧ x.toU64s = .ok [1, 0, 1, 16, 0, 0, 0, 0] := by
  obtain ⟨c, e, hc⟩ := c20_context_exists .debug (K := 3) (by norm_num) (by norm_num) (l := [17, 97]) (by simp) (by decide)
    (by intro q hq; fin_cases hq <;> norm_num) exSample_lt
    (by
      intro q hq
      fin_cases hq
      · exact ⟨1, by decide⟩
      · exact ⟨3, by decide⟩) ⟨1, 1⟩
  obtain ⟨a, ea, ha⟩ := c25_from_i64 hc .debug (a := [100, 48, 49, -100]) (by simp) (by simp)
  obtain ⟨c', b, B, n1, n2, n3, n4, n5⟩ := c23_switch (l := [17]) (q := 97) hc (by simp) .debug ha
  have hB : ∀ k, k < 8 → B k = (([100, 48, 49, -100] : List ℤ).getD k 0 + 48) / 97 := fun k hk => (n5 k hk).2
  obtain ⟨c1, e1, hc1⟩ := c20_context_exists .debug (K := 3) (by norm_num) (by norm_num) (l := [17]) (by simp) (by decide)
    (by intro q hq; fin_cases hq; norm_num) exSample_lt
    (by
      intro q hq
      fin_cases hq
      exact ⟨1, by decide⟩) ⟨1, 1⟩
  have hk : c.switchIterations c1 = some 1 := (c24_chain exSample_lt (by norm_num) e c1 1).mpr ⟨by simp, e1⟩
  have hcc : c' = c1 := by
    obtain ⟨K, -, h, -⟩ := RqP.ctx hc
    have := (RqContext.switchIterations_iff h c1 1).mp hk
    simpa [RqContext.down, n1] using this
  subst hcc
  obtain ⟨x, ex, hx, -⟩ := c24_switch_to hc .debug hk ha
  refine ⟨c, c', a, b, x, hc, n2, ea, n3, ?_, c23_last_level n2 .debug n4.1, hk, ex, ?_⟩
  · rw [(c25_to_u64 n2 n4).1 17 rfl]
    have : (List.range 8).map (fun k => (B k % ((17 : Nat) : ℤ)).toNat) =
        (List.range 8).map (fun k => ((([100, 48, 49, -100] : List ℤ).getD k 0 + 48) / 97 % 17).toNat) := by
      refine List.map_congr_left fun k hk => ?_
      rw [hB k (List.mem_range.mp hk)]; rfl
    exact (congrArg Except.ok this).trans (by decide +kernel)
  · rw [(c25_to_u64 n2 hx).1 17 rfl]; decide +kernel

/-- C26 for `[17, 97]` to `[17, 113]`, whose common prefix is `[17]`. -/
example : ∃ src dst sf s a b C, IsContext 8 [17, 97] src ∧ IsContext 8 [17, 113] dst ∧ ScalingFactor.new 5 5 = .ok sf ∧
    RqScaler.new .debug src dst sf = .ok s ∧ Poly.tryFromVecU64 .debug src [1, 2, 3] = .ok a ∧ s.scale .debug a = .ok b ∧
    Denotes dst .powerBasis C b ∧ C 2 ≡ 3 [ZMOD 1649] ∧ |C 2| < 1649 := by
  obtain ⟨src, hs⟩ := exists_context
  obtain ⟨dst, -, hd⟩ := c20_context_exists .debug (K := 3) (by norm_num) (by norm_num) (l := [17, 113]) (by simp) (by decide)
    (by intro q hq; fin_cases hq <;> norm_num) exSample_lt
    (by
      intro q hq
      fin_cases hq
      · exact ⟨1, by decide⟩
      · exact ⟨1, by decide⟩) ⟨1, 1⟩
  have hsf : ∃ sf, ScalingFactor.new 5 5 = .ok sf := ⟨_, rfl⟩
  obtain ⟨sf, hsf⟩ := hsf
  obtain ⟨a, ea, ha⟩ := c25_from_u64 hs .debug (a := [1, 2, 3]) (by simp) (by simp)
  obtain ⟨s, b, C, e1, e2, e3, e4⟩ := c26_scale_one_partial hs hd (by simp) .debug (by norm_num) hsf (m := 1) (by decide)
    (by intro i h1 h2 _; simp at h2; interval_cases i; decide) (B := 194) (by simp) (by simp) ha
  obtain ⟨e5, e6⟩ := e4 2 (by norm_num)
  refine ⟨src, dst, sf, s, a, b, C, hs, hd, hsf, e1, ea, e2, e3, e5, ?_⟩
  have : (2 : ℤ) ^ 191 * |C 2| ≤ 1649 * (2 ^ 190 + 194 * 2 ^ 63) := by
    refine e6.trans (le_of_eq ?_); norm_num
  norm_num at this ⊢
  omega

/-- `c20_denotes`, `c20_denotes_unique`, `c20_same`, `c22_even`, `c25_from_bigint`, `c25_round_trip` and `c25_too_long` on the context modulo 1649. -/
example : ∃ c p q A, IsContext 8 [17, 97] c ∧ Poly.tryFromBigint c [5, 2000] = .ok p ∧ Denotes c .powerBasis A p ∧ (0 ≤ A 1 ∧ A 1 < 1649) ∧
    A 1 ≡ 2000 [ZMOD 1649] ∧ p.toBigUints = .ok [5, 351, 0, 0, 0, 0, 0, 0] ∧ p.changeRepresentation .debug .powerBasis = .ok q ∧ q = p ∧
    Substitution.new .debug c 4 = .error .assert ∧ Poly.tryFromBigint c (List.replicate 9 1) = .error .bounds ∧
    Poly.tryFromVecU64 .debug c (List.replicate 9 1) = .error .bounds ∧ Poly.tryFromVecI64 .release c (List.replicate 9 (-1)) = .error .bounds := by
  obtain ⟨c, hc⟩ := exists_context
  obtain ⟨p, h1, h2⟩ := c25_from_bigint hc (a := [5, 2000]) (by simp)
  obtain ⟨p', h3, h4⟩ := c25_round_trip hc (a := [5, 2000]) (by simp)
  obtain rfl := Except.ok.inj (h1.symm.trans h3)
  obtain ⟨A, h5, h6⟩ := c20_denotes hc h2.1 (by rw [h2.2.1]; simp) h2.2.2.1
  rw [h2.2.1] at h5
  have h7 := (c20_denotes_unique hc (by simp) h5).mp h2 1 (by norm_num)
  have h8 := c20_same .debug p (by rw [h2.2.1]; simp)
  rw [h2.2.1] at h8
  have h9 := c25_too_long hc .debug
  exact ⟨c, p, p, A, hc, h1, h5, h6 1 (by norm_num), h7, h4.trans (by decide), h8, rfl, c22_even hc (by norm_num) .debug (by decide),
    h9.2.2 _ (by simp), h9.1 _ (by simp) (by simp), (c25_too_long hc .release).2.1 _ (by simp) (by simp)⟩

/-- `c24_unreachable`: a context is not below the one it leads to. -/
example : ∃ c, IsContext 8 [17, 97] c ∧ (Poly.zero { c with chain := [] } .ntt).modSwitchTo .debug c = .error .unwrap := by
  obtain ⟨c, hc⟩ := exists_context
  obtain ⟨K, -, h, hm⟩ := RqP.ctx hc
  have hn : c.nextCtx.isSome := by rw [h.next_isSome, hm]; simp
  refine ⟨c, hc, c24_unreachable .debug ?_⟩
  have hne : ({ c with chain := [] } : RqContext) ≠ c := by
    intro e
    rw [← e] at hn
    simp [RqContext.nextCtx] at hn
  show RqContext.switchIterations { c with chain := [] } c = none
  unfold RqContext.switchIterations
  rw [if_neg hne]
  rfl

end OnionPIR
