import Mathlib.NumberTheory.LegendreSymbol.QuadraticChar.Basic
import Mathlib.Data.Fintype.BigOperators
import Verif.Props.Rq
/-
C86: how often the search for a primitive root inside `NttOperator::new` fails.
-/
namespace OnionPIR
open NttOperator

namespace NttSampler

/-- The samples `w`, in order (later samples are never read). -/
def tape {n q : Nat} (w : Fin n → Fin q) (i : Nat) : Nat := if h : i < n then w ⟨i, h⟩ else 0

theorem loop_fails {p : Modulus} (h : p.WF) (pr : Profile) {n lam : Nat} {sample : Nat → Nat} (hs : ∀ i, sample i < p.p)
    (hn : 2 * n < p.p) (hlam : lam < p.p) (fuel i : Nat)
    (hbad : ∀ j, i ≤ j → j < i + fuel → (sample j ^ lam % p.p) ^ (2 * n) % p.p = 1 → (sample j ^ lam % p.p) ^ n % p.p = 1) :
    primitiveRootLoop pr p n lam sample fuel i = .error .assert := by
  have hl := h.lt
  induction fuel generalizing i with
  | zero => rfl
  | succ f ih =>
    have hmod := Nat.mod_lt ((sample i) ^ lam) h.pos
    have hnext := ih (i + 1) (fun j h1 h2 => hbad j (by omega) (by omega))
    rw [primitiveRootLoop, Modulus.pow_ok h pr (hs i) hlam, res_ok_bind, mulW_ok (by omega), res_ok_bind, isPrimitiveRoot,
      dassert_ok hmod, res_ok_bind, Modulus.pow_ok h pr hmod hn, res_ok_bind]
    by_cases hc : (sample i ^ lam % p.p) ^ (2 * n) % p.p = 1
    · rw [if_pos hc, Modulus.pow_ok h pr hmod (by omega), res_ok_bind, res_ok_bind, show 2 * n / 2 = n by omega,
        if_neg (by simp [hbad i le_rfl (by omega) hc])]
      exact hnext
    · rw [if_neg hc, res_ok_bind, if_neg (by simp)]
      exact hnext

theorem half {q x : Nat} (hq : q.Prime) (h2 : q ≠ 2) (h : x ^ (q - 1) % q = 1) (hx : x ^ ((q - 1) / 2) % q ≠ q - 1) :
    x ^ ((q - 1) / 2) % q = 1 := by
  have hF := Fact.mk hq
  have h2' := hq.two_le
  have hodd : (q - 1) / 2 * 2 = q - 1 := by
    have := hq.eq_two_or_odd
    omega
  have e1 : ((x : ZMod q) ^ ((q - 1) / 2)) ^ 2 = 1 := by
    rw [← pow_mul, hodd]
    have : ((x ^ (q - 1) : Nat) : ZMod q) = ((1 : Nat) : ZMod q) := by
      rw [ZMod.natCast_eq_natCast_iff']; rw [h, Nat.mod_eq_of_lt (by omega)]
    simpa using this
  rcases (sq_eq_one_iff.mp e1) with e | e
  · have : ((x ^ ((q - 1) / 2) : Nat) : ZMod q) = ((1 : Nat) : ZMod q) := by simpa using e
    rw [ZMod.natCast_eq_natCast_iff', Nat.mod_eq_of_lt (show 1 < q by omega)] at this
    exact this
  · have : ((x ^ ((q - 1) / 2) : Nat) : ZMod q) = ((q - 1 : Nat) : ZMod q) := by
      rw [Nat.cast_sub (by omega), ZMod.natCast_self]; simpa using e
    rw [ZMod.natCast_eq_natCast_iff', Nat.mod_eq_of_lt (show q - 1 < q by omega)] at this
    exact absurd this hx

theorem mapR_mem {α β : Type} {f : α → Res β} {l : List α} {r : List β} (h : mapR f l = .ok r) {a : α} (ha : a ∈ l) : ∃ b, f a = .ok b := by
  induction l generalizing r with
  | nil => cases ha
  | cons x xs ih =>
    simp only [mapR, bind_eq_ok] at h
    obtain ⟨y, hy, r', hr', -⟩ := h
    rw [List.mem_cons] at ha
    rcases ha with rfl | ha
    · exact ⟨y, hy⟩
    · exact ih hr' ha

open Classical in
/-- Half of the nonzero residues are no squares. -/
theorem card_nonresidues {q : Nat} (hq : q.Prime) (h2 : q ≠ 2) :
    2 * (Finset.univ.filter fun x : Fin q => (x : Nat) ^ ((q - 1) / 2) % q = q - 1).card = q - 1 := by
  have hF := Fact.mk hq
  have h2' := hq.two_le
  have hodd : q % 2 = 1 := hq.eq_two_or_odd.resolve_left h2
  have hch : ringChar (ZMod q) ≠ 2 := by rw [ZMod.ringChar_zmod_n]; exact h2
  have e1 : (Finset.univ.filter fun x : Fin q => (x : Nat) ^ ((q - 1) / 2) % q = q - 1).card =
      (Finset.univ.filter fun a : ZMod q => quadraticChar (ZMod q) a = -1).card := by
    have hk : ∀ x : Nat, x ^ ((q - 1) / 2) % q = q - 1 ↔ quadraticChar (ZMod q) (x : ZMod q) = -1 := by
      intro x
      have e := quadraticChar_eq_pow_of_char_ne_two' hch (x : ZMod q)
      rw [ZMod.card, show q / 2 = (q - 1) / 2 by omega] at e
      have h1 : x ^ ((q - 1) / 2) % q = q - 1 ↔ (x : ZMod q) ^ ((q - 1) / 2) = -1 := by
        have : (-1 : ZMod q) = ((q - 1 : Nat) : ZMod q) := by rw [Nat.cast_sub (by omega), ZMod.natCast_self]; simp
        rw [this, ← Nat.cast_pow, ZMod.natCast_eq_natCast_iff', Nat.mod_eq_of_lt (show q - 1 < q by omega)]
      rw [h1, ← e]
      have hne : (1 : ZMod q) ≠ -1 := fun h => by
        have : Fact (2 < q) := ⟨by omega⟩
        exact ZMod.neg_one_ne_one h.symm
      by_cases h0 : (x : ZMod q) = 0
      · rw [h0]; simp
      · rcases quadraticChar_dichotomy h0 with h | h <;> rw [h] <;> simp [hne]
    refine Finset.card_nbij' (fun x => ((x : Nat) : ZMod q)) (fun a => ⟨a.val, ZMod.val_lt a⟩) ?_ ?_ ?_ ?_
    · intro x hx
      rw [Finset.mem_coe, Finset.mem_filter] at hx ⊢
      exact ⟨Finset.mem_univ _, (hk _).mp hx.2⟩
    · intro a ha
      rw [Finset.mem_coe, Finset.mem_filter] at ha ⊢
      refine ⟨Finset.mem_univ _, (hk _).mpr ?_⟩
      rw [ZMod.natCast_zmod_val]; exact ha.2
    · intro x _
      exact Fin.ext (ZMod.val_cast_of_lt x.2)
    · intro a _
      exact ZMod.natCast_zmod_val a
  rw [e1]
  have hs := quadraticChar_sum_zero hch
  have h3 : ∀ a : ZMod q, (2 * (if quadraticChar (ZMod q) a = -1 then 1 else 0) : ℤ) = (if a = 0 then 0 else 1) - quadraticChar (ZMod q) a := by
    intro a
    by_cases h0 : a = 0
    · rw [h0]; simp
    · rcases quadraticChar_dichotomy h0 with h | h <;> rw [h] <;> simp [h0]
  have h4 := Finset.sum_congr (s₁ := Finset.univ) rfl fun a _ => h3 a
  rw [Finset.sum_sub_distrib, hs, ← Finset.mul_sum, Finset.sum_boole, sub_zero] at h4
  have h5 : (∑ a : ZMod q, if a = 0 then (0 : ℤ) else 1) = q - 1 := by
    have : ∀ a : ZMod q, (if a = 0 then (0 : ℤ) else 1) = 1 - if a = 0 then 1 else 0 := by intro a; split_ifs <;> rfl
    rw [Finset.sum_congr rfl fun a _ => this a, Finset.sum_sub_distrib, Finset.sum_ite_eq' Finset.univ (0 : ZMod q)]
    simp [ZMod.card]
  rw [h5] at h4
  have : ((q - 1 : Nat) : ℤ) = q - 1 := by rw [Nat.cast_sub (by omega)]; rfl
  exact_mod_cast h4.trans this.symm

theorem ratio {F q a b n : Nat} (hf : F * 2 ^ n = (q + 1) ^ n) (h1 : a * (q + 1) ≤ (a + 1) * q) (hq : 0 < q)
    (h2 : (a + 1) ^ n * 2 ^ b < a ^ n * 2 ^ n) : F * 2 ^ b < q ^ n := by
  have h3 := Nat.pow_le_pow_left h1 n
  rw [mul_pow, mul_pow, ← hf] at h3
  have hpos : 0 < q ^ n := by positivity
  have : a ^ n * 2 ^ n * (F * 2 ^ b) < a ^ n * 2 ^ n * q ^ n := by
    calc a ^ n * 2 ^ n * (F * 2 ^ b) = a ^ n * (F * 2 ^ n) * 2 ^ b := by ring
      _ ≤ (a + 1) ^ n * q ^ n * 2 ^ b := Nat.mul_le_mul_right _ h3
      _ = (a + 1) ^ n * 2 ^ b * q ^ n := by ring
      _ < a ^ n * 2 ^ n * q ^ n := Nat.mul_lt_mul_of_pos_right h2 hpos
  exact lt_of_mul_lt_mul_left this (Nat.zero_le _)

theorem new_iff {K : Nat} {p : Modulus} (hw : p.WF) (pr : Profile) (hprime : p.p.Prime) (hK : 3 ≤ K)
    (hq : p.p % (2 * 2 ^ K) = 1) {sample : Nat → Nat} (hs : ∀ i, sample i < p.p) :
    ((∃ op, NttOperator.new pr sample p (2 ^ K) = .ok op) ↔ ∃ i, i < 100 ∧ sample i ^ ((p.p - 1) / 2) % p.p = p.p - 1) ∧
    (NttOperator.new pr sample p (2 ^ K) = .error .assert ↔ ∀ i, i < 100 → sample i ^ ((p.p - 1) / 2) % p.p ≠ p.p - 1) := by
  have hfail : (∀ i, i < 100 → sample i ^ ((p.p - 1) / 2) % p.p ≠ p.p - 1) → NttOperator.new pr sample p (2 ^ K) = .error .assert := by
    intro hbad
    have h2 := hw.two_le
    have hlt := hw.lt
    have hdm := Nat.div_add_mod p.p (2 * 2 ^ K)
    have hKpos : 0 < 2 ^ K := by positivity
    have hK8 := Nat.pow_le_pow_right (show 0 < 2 by norm_num) hK
    have hq0 : p.p / (2 * 2 ^ K) ≠ 0 := by
      intro h0; rw [h0, hq] at hdm; omega
    have h2n : 2 * 2 ^ K < p.p := by
      have : 2 * 2 ^ K * 1 ≤ 2 * 2 ^ K * (p.p / (2 * 2 ^ K)) := Nat.mul_le_mul_left _ (Nat.one_le_iff_ne_zero.mpr hq0)
      omega
    have hsup : supportsNtt p.p (2 ^ K) = .ok true := by
      unfold supportsNtt
      rw [if_neg, Nat.shiftLeft_eq, pow_one, Nat.mod_eq_of_lt (by omega), modR_ok (by omega), res_ok_bind, Nat.mul_comm, hq]
      · simp [isPrime, hprime]
      · rw [Nat.log2_two_pow]
        omega
    have hlamn : (p.p - 1) / (2 * 2 ^ K) * (2 * 2 ^ K) = p.p - 1 := by
      apply Nat.div_mul_cancel
      exact ⟨p.p / (2 * 2 ^ K), by omega⟩
    have hlamn2 : (p.p - 1) / (2 * 2 ^ K) * 2 ^ K = (p.p - 1) / 2 := by
      have := hlamn
      rw [show (p.p - 1) / (2 * 2 ^ K) * (2 * 2 ^ K) = 2 * ((p.p - 1) / (2 * 2 ^ K) * 2 ^ K) by ring] at this
      generalize (p.p - 1) / (2 * 2 ^ K) * 2 ^ K = z at *
      omega
    have hlam : (p.p - 1) / (2 * 2 ^ K) < p.p := lt_of_le_of_lt (Nat.div_le_self _ _) (by omega)
    unfold NttOperator.new primitiveRoot
    rw [hsup, res_ok_bind, rassert_ok rfl, res_ok_bind, subW_ok (by omega), res_ok_bind, mulW_ok (by omega), res_ok_bind,
      divR_ok (by positivity), res_ok_bind, NttSampler.loop_fails hw pr hs h2n hlam 100 0]
    · rfl
    · intro j _ hj h1
      rw [← Nat.pow_mod, ← pow_mul, hlamn] at h1
      rw [← Nat.pow_mod, ← pow_mul, hlamn2]
      exact NttSampler.half hprime (by omega) h1 (hbad j (by omega))
  have hok : (∃ i, i < 100 ∧ sample i ^ ((p.p - 1) / 2) % p.p = p.p - 1) → ∃ op, NttOperator.new pr sample p (2 ^ K) = .ok op :=
    fun h => ntt_new_succeeds hw pr hprime hK hq hs h
  refine ⟨⟨?_, hok⟩, ?_, hfail⟩
  · rintro ⟨op, hop⟩
    by_contra hc
    push Not at hc
    rw [hfail hc] at hop
    cases hop
  · intro he i hi h
    obtain ⟨op, hop⟩ := hok ⟨i, hi, h⟩
    rw [he] at hop
    cases hop

end NttSampler

/-- For a prime `q = 1 mod 2n` and `n = 2^K >= 8` the constructor returns an operator exactly when one of the first 100 samples is a
quadratic non-residue, and otherwise fails at the `assert!(false)` of `primitive_root`. -/
theorem c86_new_iff {q K : Nat} {p : Modulus} (hp : Modulus.new q = .ok p) (pr : Profile) (hprime : q.Prime) (hK : 3 ≤ K)
    (hq : q % (2 * 2 ^ K) = 1) {sample : Nat → Nat} (hs : ∀ i, sample i < q) :
    ((∃ op, NttOperator.new pr sample p (2 ^ K) = .ok op) ↔ ∃ i, i < 100 ∧ sample i ^ ((q - 1) / 2) % q = q - 1) ∧
    (NttOperator.new pr sample p (2 ^ K) = .error .assert ↔ ∀ i, i < 100 → sample i ^ ((q - 1) / 2) % q ≠ q - 1) := by
  obtain ⟨h2, hlt, rfl, hw⟩ := Modulus.new_inv hp
  exact NttSampler.new_iff hw pr hprime hK hq hs

open Classical in
/-- Of the `q^100` sequences of 100 samples, the constructor fails for exactly `((q+1)/2)^100`. -/
theorem c86_count {q K : Nat} {p : Modulus} (hp : Modulus.new q = .ok p) (pr : Profile) (hprime : q.Prime) (hK : 3 ≤ K)
    (hq : q % (2 * 2 ^ K) = 1) :
    (Finset.univ.filter fun w : Fin 100 → Fin q => ¬ ∃ op, NttOperator.new pr (NttSampler.tape w) p (2 ^ K) = .ok op).card =
      ((q + 1) / 2) ^ 100 := by
  have h2 : q ≠ 2 := by
    rintro rfl
    have := Nat.pow_le_pow_right (show 0 < 2 by norm_num) hK
    rw [Nat.mod_eq_of_lt (by omega)] at hq
    omega
  have hpos := hprime.pos
  have hs : ∀ w : Fin 100 → Fin q, ∀ i, NttSampler.tape w i < q := by
    intro w i
    unfold NttSampler.tape
    split_ifs
    · exact (w _).2
    · exact hpos
  have e : (Finset.univ.filter fun w : Fin 100 → Fin q => ¬ ∃ op, NttOperator.new pr (NttSampler.tape w) p (2 ^ K) = .ok op) =
      Fintype.piFinset fun _ : Fin 100 => Finset.univ.filter fun x : Fin q => ¬ (x : Nat) ^ ((q - 1) / 2) % q = q - 1 := by
    ext w
    rw [Finset.mem_filter, Fintype.mem_piFinset, (c86_new_iff hp pr hprime hK hq (hs w)).1]
    constructor
    · rintro ⟨-, h⟩ i
      rw [Finset.mem_filter]
      refine ⟨Finset.mem_univ _, fun hc => h ⟨i, i.2, ?_⟩⟩
      rw [NttSampler.tape, dif_pos i.2]; exact hc
    · intro h
      refine ⟨Finset.mem_univ _, ?_⟩
      rintro ⟨i, hi, hc⟩
      rw [NttSampler.tape, dif_pos hi] at hc
      exact (Finset.mem_filter.mp (h ⟨i, hi⟩)).2 hc
  rw [e, Fintype.card_piFinset, Finset.prod_const, Finset.card_univ, Fintype.card_fin]
  congr 1
  have h1 := NttSampler.card_nonresidues hprime h2
  have h3 := Finset.card_filter_add_card_filter_not (s := (Finset.univ : Finset (Fin q))) fun x : Fin q => (x : Nat) ^ ((q - 1) / 2) % q = q - 1
  rw [Finset.card_univ, Fintype.card_fin] at h3
  have hodd : q % 2 = 1 := hprime.eq_two_or_odd.resolve_left h2
  omega

open Classical in
/-- Hence the constructor fails for less than a fraction `2^-91` of the sequences of samples, and less than `2^-99` if `q >= 150`. -/
theorem c86_rare {q K : Nat} {p : Modulus} (hp : Modulus.new q = .ok p) (pr : Profile) (hprime : q.Prime) (hK : 3 ≤ K)
    (hq : q % (2 * 2 ^ K) = 1) :
    let failing := (Finset.univ.filter fun w : Fin 100 → Fin q => ¬ ∃ op, NttOperator.new pr (NttSampler.tape w) p (2 ^ K) = .ok op).card
    let all := Fintype.card (Fin 100 → Fin q)
    failing * 2 ^ 91 < all ∧ (150 ≤ q → failing * 2 ^ 99 < all) := by
  intro failing all
  have hall : all = q ^ 100 := by simp [all]
  have hf : failing * 2 ^ 100 = (q + 1) ^ 100 := by
    rw [show failing = ((q + 1) / 2) ^ 100 from c86_count hp pr hprime hK hq, ← mul_pow, Nat.div_mul_cancel]
    have := Nat.pow_le_pow_right (show 0 < 2 by norm_num) hK
    rcases hprime.eq_two_or_odd with h | h
    · rw [h, Nat.mod_eq_of_lt (by omega)] at hq; omega
    · omega
  have h17 : 17 ≤ q := by
    have := Nat.pow_le_pow_right (show 0 < 2 by norm_num) hK
    by_contra hc
    rcases Nat.lt_or_ge q 16 with h | h
    swap
    · rw [show q = 16 by omega] at hprime; revert hprime; norm_num
    rw [Nat.mod_eq_of_lt (by omega)] at hq
    rw [hq] at hprime
    exact Nat.not_prime_one hprime
  rw [hall]
  exact ⟨NttSampler.ratio hf (a := 17) (by omega) (by omega) (by norm_num),
    fun h => NttSampler.ratio hf (a := 150) (by omega) (by omega) (by norm_num)⟩

/-- Exactly when `RqContext::new` returns a context: the degree is a power of two and at least 8, there is at least one modulus, and the moduli
are distinct primes below `2^62` that are 1 modulo twice the degree, each with a quadratic non-residue among its first 100 samples. -/
theorem c86_context_iff (pr : Profile) {l : List Nat} {n : Nat} (hn : n < 2 ^ 64) {sample : Nat → Nat → Nat}
    (hs : ∀ p i, 0 < p → sample p i < p) (bd : BitDecomposition) :
    (∃ c, RqContext.new pr sample l n bd = .ok c) ↔
      (∃ K, 3 ≤ K ∧ n = 2 ^ K) ∧ l ≠ [] ∧ l.Nodup ∧
      ∀ q ∈ l, q.Prime ∧ q < 2 ^ 62 ∧ q % (2 * n) = 1 ∧ ∃ i, i < 100 ∧ sample q i ^ ((q - 1) / 2) % q = q - 1 := by
  constructor
  · rintro ⟨c, hc⟩
    obtain ⟨K, rfl, h, hl⟩ := RqContext.new_wf hs hn hc
    have hne : l ≠ [] := by rw [← hl]; exact h.core.ne
    have hops : ∀ q ∈ l, ∃ m : Modulus, m.p = q ∧ m.WF ∧ ∃ op, NttOperator.new pr (sample m.p) m (2 ^ K) = .ok op := by
      unfold RqContext.new at hc
      obtain ⟨k, hk⟩ : ∃ k, l.length = k + 1 := ⟨l.length - 1, by have := List.length_pos_iff.mpr hne; omega⟩
      rw [hk] at hc
      unfold RqContext.newAux at hc
      simp only [bind_eq_ok] at hc
      obtain ⟨rns, hr, ops, hops, -⟩ := hc
      obtain ⟨hw, hml⟩ := RnsContext.new_wf hr
      intro q hq
      rw [← hml, ← hw.ps, List.mem_map] at hq
      obtain ⟨m, hm, rfl⟩ := hq
      exact ⟨m, rfl, hw.mods m hm, NttSampler.mapR_mem hops hm⟩
    have hall : ∀ q ∈ l, 3 ≤ K ∧ q.Prime ∧ q < 2 ^ 62 ∧ q % (2 * 2 ^ K) = 1 ∧
        ∃ i, i < 100 ∧ sample q i ^ ((q - 1) / 2) % q = q - 1 := by
      intro q hq
      obtain ⟨m, rfl, hm, op, hop⟩ := hops q hq
      have hsup := hop
      unfold NttOperator.new at hsup
      simp only [bind_eq_ok] at hsup
      obtain ⟨sb, hsb, _, has, -⟩ := hsup
      rw [rassert_eq_ok] at has
      subst has
      obtain ⟨K', hK3, -, e, hprime, hmod⟩ := supportsNtt_inv hn hsb
      have := Nat.pow_right_injective (le_refl 2) e
      subst this
      exact ⟨hK3, hprime, hm.lt, hmod, (NttSampler.new_iff hm pr hprime hK3 hmod (fun i => hs _ i hm.pos)).1.mp ⟨op, hop⟩⟩
    obtain ⟨q, hq⟩ := List.exists_mem_of_ne_nil _ hne
    refine ⟨⟨K, (hall q hq).1, rfl⟩, hne, ?_, fun q hq => (hall q hq).2⟩
    have hcop := h.cop
    rw [hl] at hcop
    refine List.Pairwise.imp_of_mem (R := Nat.Coprime) ?_ hcop
    rintro a b ha - hab rfl
    exact Nat.Prime.one_lt (hall a ha).2.1 |>.ne' ((Nat.coprime_self a).mp hab)
  · rintro ⟨⟨K, hK, rfl⟩, hne, hnd, hall⟩
    have hK64 : K < 64 := (Nat.pow_lt_pow_iff_right (by norm_num)).mp hn
    obtain ⟨c, hc, -⟩ := c20_context_exists pr hK hK64 hne hnd (fun q hq => ⟨(hall q hq).1, (hall q hq).2.1, (hall q hq).2.2.1⟩) hs
      (fun q hq => (hall q hq).2.2.2) bd
    exact ⟨c, hc⟩

/-- A modulus that C86 applies to, with a failing and a successful sequence of samples. -/
example (pr : Profile) : ∃ p, Modulus.new 17 = .ok p ∧
    NttOperator.new pr (fun _ => 4) p 8 = .error .assert ∧ (∃ op, NttOperator.new pr (fun i => if i = 99 then 3 else 4) p 8 = .ok op) := by
  refine ⟨_, rfl, ?_, ?_⟩
  · exact (c86_new_iff (q := 17) (K := 3) rfl pr (by norm_num) le_rfl (by norm_num) (fun _ => by norm_num)).2.mpr fun i _ => by norm_num
  · exact (c86_new_iff (q := 17) (K := 3) rfl pr (by norm_num) le_rfl (by norm_num) (fun i => by split_ifs <;> norm_num)).1.mpr
      ⟨99, by norm_num, by norm_num⟩

/-- Moduli for which contexts exist for some samples and do not for others. -/
example (pr : Profile) (bd : BitDecomposition) : (∃ c, RqContext.new pr (fun p _ => if p ≤ 3 then 0 else if p = 97 then 5 else 3) [17, 97] 8 bd = .ok c) ∧
    ¬ ∃ c, RqContext.new pr (fun _ _ => 0) [17, 97] 8 bd = .ok c := by
  constructor
  · rw [c86_context_iff pr (by norm_num) (fun p i hp => by split_ifs <;> omega)]
    refine ⟨⟨3, le_rfl, rfl⟩, by simp, by simp, ?_⟩
    intro q hq
    simp only [List.mem_cons, List.not_mem_nil, or_false] at hq
    rcases hq with rfl | rfl
    · exact ⟨by norm_num, by norm_num, by norm_num, 0, by norm_num, by norm_num⟩
    · exact ⟨by norm_num, by norm_num, by norm_num, 0, by norm_num, by norm_num⟩
  · rw [c86_context_iff pr (by norm_num) (fun p i hp => hp)]
    rintro ⟨-, -, -, h⟩
    obtain ⟨-, -, -, i, -, hi⟩ := h 17 (by simp)
    norm_num at hi

open Classical in
/-- For the modulus 17 the constructor fails for `9^100` of the `17^100` sequences. -/
example (pr : Profile) : ∃ p, Modulus.new 17 = .ok p ∧
    (Finset.univ.filter fun w : Fin 100 → Fin 17 => ¬ ∃ op, NttOperator.new pr (NttSampler.tape w) p 8 = .ok op).card = 9 ^ 100 :=
  ⟨_, rfl, c86_count (q := 17) (K := 3) rfl pr (by norm_num) le_rfl (by norm_num)⟩

open Classical in
/-- For the modulus 193 fewer than one in `2^99` sequences fail. -/
example (pr : Profile) : ∃ p : Modulus, Modulus.new 193 = .ok p ∧
    (Finset.univ.filter fun w : Fin 100 → Fin 193 => ¬ ∃ op : NttOperator, NttOperator.new pr (NttSampler.tape w) p (2 ^ 3) = Except.ok op).card * 2 ^ 99 <
      Fintype.card (Fin 100 → Fin 193) := by
  obtain ⟨p, hp, -⟩ := Modulus.new_ok (p := 193) (by norm_num) (by norm_num)
  exact ⟨p, hp, (c86_rare (K := 3) hp pr (by norm_num) le_rfl (by norm_num)).2 (by norm_num)⟩

end OnionPIR
