import Verif.Proofs.LeakSign
import Verif.Props.Leak
import Verif.Props.ClientReaction
/-
C120 (src/rns.rs:384-393, 413-416, src/bfv.rs:347-382): what the branches of decryption show, exactly, and that they give the key away.
-/
namespace OnionPIR
open Lk Rg Poly Spec

variable {N t variance : Nat} {l : List Nat} {P : BfvParameters}

namespace Watch

theorem odd_of_cong {K q : Nat} (hq : q % (2 * 2 ^ K) = 1) (hp : q.Prime) : q % 2 = 1 ∧ 3 ≤ q := by
  have h1 : q % 2 = 1 := by
    have : q % (2 * 2 ^ K) % 2 = q % 2 := Nat.mod_mul_right_mod _ _ _
    rw [hq] at this
    omega
  have := hp.two_le
  exact ⟨h1, by omega⟩

/-- The moduli of a level. -/
theorem moduli (h : IsParams N t l variance P) {i : Nat} {q : Nat} (hq : q ∈ levelModuli l i) : q.Prime ∧ q % 2 = 1 ∧ t < q ∧ q < 2 ^ 62 := by
  obtain ⟨K, ext, rfl, hw, rfl, rfl, -⟩ := BfvP.params h
  have hl : 0 < P.ciphertextModuli.length := by
    have := List.length_pos_of_mem (List.mem_of_mem_take hq)
    exact this
  obtain ⟨L, hL⟩ := hw.levels 0 hl
  have hm : q ∈ L.qCtx.moduli64 := by
    rw [hL.wf.mods, Nat.sub_zero, List.take_length]
    exact List.mem_of_mem_take hq
  obtain ⟨h1, h2⟩ := hL.wf.ctx.prime hm
  exact ⟨h1, (odd_of_cong h2 h1).1, hw.lt_q q (List.mem_of_mem_take hq), (hL.wf.ctx.bound hm).2⟩

/-- The signs that decryption meets. -/
theorem signs_eq (h : IsParams N t l variance P) {sk : SecretKey} (hk : IsKey P sk) {i : Nat} {fs : List (Rg N)} (hne : fs ≠ []) {ct : BfvCipherText}
    (hct : IsCt P i fs ct) :
    ∃ sc, idx sk.params.scalars ct.level = .ok sc ∧ sc.numberCommonModuli < sc.dst.moduli64.length ∧ sc.src.degree = N ∧
      sk.signs ct = .ok ((List.range N).map fun k => some (leakBit t (levelModuli l i) (cf (phase (keyRing N sk) fs) k))) := by
  have hmods : ∀ q ∈ levelModuli l i, q.Prime ∧ q % 2 = 1 ∧ t < q ∧ q < 2 ^ 62 := fun q hq => moduli h hq
  obtain ⟨K, ext, rfl, hw, rfl, rfl, -⟩ := BfvP.params h
  obtain ⟨L, hL⟩ := BfvP.isCt_level hw hne hct
  obtain ⟨h1, h2, h3⟩ := (BfvP.isCt_iff hL fs ct).mp hct
  have hsk := BfvP.key hw hk
  have hc := hL.wf.ctx
  obtain ⟨pr', hsc⟩ := hL.wf.scalar
  have hlen := SecretKey.len_le hw hL
  have htQ := (hL.t_lt_Q hw).ne
  have hb := RqScaler.built hc hw.pt (by omega) hc.Q_pos hsc (fun he => absurd he htQ)
  subst h2
  have hp := hk.1
  subst hp
  have hms : levelModuli sk.params.ciphertextModuli ct.level = L.qCtx.moduli64 := by rw [hL.wf.mods]; rfl
  rw [hms] at hmods ⊢
  refine ⟨L.scalar, idx_of hL.sc, ?_, by rw [hb.esrc, hc.core.deg], ?_⟩
  · rw [hb.none htQ, hb.edst, hw.pt_mods]; simp
  unfold SecretKey.signs
  rw [h3, SecretKey.phase_enc hsk .release hc hne, res_ok_bind, toPower_enc hc, res_ok_bind, idx_of hL.sc, res_ok_bind]
  show Except.ok _ = _
  congr 1
  unfold RqScaler.signs
  rw [hb.esrc, hc.core.deg]
  refine List.map_congr_left fun k hk => ?_
  rw [RqScaler.column_enc' hc _ (List.mem_range.mp hk), BfvP.phase_eq, BfvP.keyRing_eq]
  simp only
  have e : L.scalar.rnsScaler.src.moduliU64 = L.qCtx.moduli64 := by rw [hb.rsrc, hc.core.m64]
  rw [← e]
  refine RnsScaler.signOf_leakBit hb.wf ?_ ?_ ?_ _
  · rw [e]; exact fun q hq => (hmods q hq).1
  · rw [e]; intro q hq
    have := (hmods q hq).1.two_le
    have := (hmods q hq).2.1
    omega
  · rw [hb.rsf, e, decide_eq_false htQ]; rfl

end Watch

/-- C120: the trace of decryption in the release build shows for every coefficient of the phase the bit `leakBit`, and nothing else. -/
theorem c120_trace (h : IsParams N t l variance P) {sk sk' : SecretKey} (hk : IsKey P sk) (hk' : IsKey P sk') (hl : sk.coeffs.length = sk'.coeffs.length)
    {i : Nat} {fs gs : List (Rg N)} (hne : fs ≠ []) (hn : fs.length = gs.length) {ct ct' : BfvCipherText} (hct : IsCt P i fs ct) (hct' : IsCt P i gs ct') :
    ∃ pt pt' tr tr', sk.decryptL .release ct = ⟨.ok pt, tr⟩ ∧ sk'.decryptL .release ct' = ⟨.ok pt', tr'⟩ ∧
      (tr = tr' ↔ ∀ k, k < N → leakBit t (levelModuli l i) (cf (phase (keyRing N sk) fs) k) =
        leakBit t (levelModuli l i) (cf (phase (keyRing N sk') gs) k)) := by
  have hne' : gs ≠ [] := by rintro rfl; exact hne (List.length_eq_zero_iff.mp hn)
  obtain ⟨pt, h1, -⟩ := c30_decrypt_total h hk .release hne hct
  obtain ⟨pt', h2, -⟩ := c30_decrypt_total h hk' .release hne' hct'
  rw [← SecretKey.decryptL_val] at h1 h2
  obtain ⟨sc, s1, s2, s3, s4⟩ := Watch.signs_eq h hk hne hct
  obtain ⟨sc', -, -, -, s4'⟩ := Watch.signs_eq h hk' hne' hct'
  refine ⟨pt, pt', _, _, by rw [← h1], by rw [← h2], ?_⟩
  have hlike := like_cts h hn hct.2.2 hct'.2.2
  constructor
  · intro he
    by_contra hc
    push Not at hc
    refine (SecretKey.decryptL_apart (hk.1.trans hk'.1.symm) hl (hct.2.1.trans hct'.2.1.symm) hlike s1 s2 (by rw [s3]; exact s4) (by rw [s3]; exact s4')
      (by rw [s3]; exact hc) pt pt' h1 h2).ne he
  · intro he
    refine (SecretKey.decryptL_sim (hk.1.trans hk'.1.symm) hl (hct.2.1.trans hct'.2.1.symm) hlike ?_ pt pt' h1 h2).1
    rw [s4, s4']
    congr 1
    refine List.map_congr_left fun k hk => ?_
    rw [he k (List.mem_range.mp hk)]

namespace Watch

theorem unit_one {ms : List Nat} (hc : ms.Pairwise Nat.Coprime) (hp : ∀ q ∈ ms, q.Prime) {q : Nat} (hq : q ∈ ms) :
    ((ms.prod / q) ^ (q - 1)) % q = 1 := by
  obtain ⟨i, hi, rfl⟩ := List.mem_iff_getElem.mp hq
  have h1 := coprime_div_prod (fun q hq => (hp q hq).pos) hc hi
  rw [getD_eq_getElem' _ _ _ hi] at h1
  have hf := Nat.ModEq.pow_totient h1
  rw [Nat.totient_prime (hp _ hq), Nat.ModEq, Nat.mod_eq_of_lt (hp _ hq).one_lt] at hf
  exact hf

theorem unit_zero {ms : List Nat} (hp : ∀ q ∈ ms, q.Prime) {q r : Nat} (hq : q ∈ ms) (hr : r ∈ ms) (hne : r ≠ q) :
    r ∣ (ms.prod / q) ^ (q - 1) := by
  obtain ⟨i, hi, rfl⟩ := List.mem_iff_getElem.mp hq
  obtain ⟨j, hj, rfl⟩ := List.mem_iff_getElem.mp hr
  have h1 := getD_mul_dvd_prod ms hi hj (by rintro rfl; exact hne rfl)
  have h2 := getD_dvd_prod ms hi
  rw [getD_eq_getElem' _ _ _ hi] at h1 h2
  rw [getD_eq_getElem' _ _ _ hj] at h1
  rw [← Nat.dvd_div_iff_mul_dvd h2] at h1
  exact h1.trans (dvd_pow_self _ (by have := (hp _ hq).two_le; omega))

/-- The weights decide whether a bit can be set. -/
theorem bit_constant {t : Nat} {ms : List Nat} (hc : ms.Pairwise Nat.Coprime) (hp : ∀ q ∈ ms, q.Prime) :
    (∀ x, leakBit t ms x = false) ↔ ∀ q ∈ ms, 0 ≤ leakWeight t ms q := by
  constructor
  · intro h q hq
    have hx := h (((ms.prod / q) ^ (q - 1) : Nat) : ℤ)
    unfold leakBit at hx
    rw [decide_eq_false_iff_not, not_lt] at hx
    have hnd : ms.Nodup := by
      refine List.Pairwise.imp_of_mem (fun {a b} ha _ hab => ?_) hc
      rintro rfl
      exact (hp a ha).ne_one (by simpa using hab)
    have key : ∀ l : List Nat, l.Nodup → (∀ r ∈ l, r ∈ ms) → (l.map fun (r : Nat) => (((ms.prod / q) ^ (q - 1) : Nat) : ℤ) % (r : ℤ) * leakWeight t ms r).sum =
        if q ∈ l then leakWeight t ms q else 0 := by
      intro l
      induction l with
      | nil => intro _ _; simp
      | cons r l ih =>
        intro hl hm
        rw [List.map_cons, List.sum_cons, ih (List.nodup_cons.mp hl).2 fun r hr => hm r (List.mem_cons_of_mem _ hr)]
        by_cases hrq : r = q
        · subst hrq
          have := unit_one hc hp hq
          rw [if_neg (List.nodup_cons.mp hl).1, if_pos List.mem_cons_self, ← Int.natCast_emod, this]
          simp
        · have h0 : (((ms.prod / q) ^ (q - 1) : Nat) : ℤ) % (r : ℤ) = 0 :=
            Int.emod_eq_zero_of_dvd (Int.natCast_dvd_natCast.mpr (unit_zero hp hq (hm r List.mem_cons_self) hrq))
          rw [h0, zero_mul, zero_add]
          simp only [List.mem_cons, Ne.symm hrq, false_or]
    rw [key ms hnd fun r hr => hr, if_pos hq] at hx
    exact hx
  · intro h x
    unfold leakBit
    rw [decide_eq_false_iff_not, not_lt]
    refine List.sum_nonneg fun y hy => ?_
    obtain ⟨q, hq, rfl⟩ := List.mem_map.mp hy
    have := (hp q hq).pos
    exact mul_nonneg (Int.emod_nonneg _ (by omega)) (h q hq)

/-- The weight of a residue, up to the rounding. -/
theorem weight_approx {t : Nat} {ms : List Nat} (hQ : 0 < ms.prod) (q : Nat) :
    ∃ e : ℤ, 0 ≤ e ∧ e < ms.prod ∧ leakWeight t ms q * ms.prod = 2 ^ 127 * Int.bmod ((t * (ms.prod / q) ^ (q - 1) : Nat) : ℤ) ms.prod + e := by
  unfold leakWeight
  generalize Int.bmod ((t * (ms.prod / q) ^ (q - 1) : Nat) : ℤ) ms.prod = D
  have h1 := Int.emod_nonneg (-(2 ^ 127 * D)) (show (ms.prod : ℤ) ≠ 0 by omega)
  have h2 := Int.emod_lt_of_pos (-(2 ^ 127 * D)) (show (0 : ℤ) < ms.prod by omega)
  have h3 := Int.mul_ediv_add_emod (-(2 ^ 127 * D)) ms.prod
  exact ⟨_, h1, h2, by linarith⟩

/-- With two moduli the remainders have opposite signs. -/
theorem two_remainders {p q t : Nat} (hp : p.Prime) (hq : q.Prime) (hp2 : p % 2 = 1) (hq2 : q % 2 = 1) (hpq : p ≠ q) (h0 : 0 < t) (hpt : t < p)
    (hqt : t < q) :
    Int.bmod ((t * q ^ (p - 1) : Nat) : ℤ) (p * q) + Int.bmod ((t * p ^ (q - 1) : Nat) : ℤ) (p * q) = t ∧
      (Int.bmod ((t * q ^ (p - 1) : Nat) : ℤ) (p * q) ≤ -q ∨ (q : ℤ) ≤ Int.bmod ((t * q ^ (p - 1) : Nat) : ℤ) (p * q)) := by
  have hcop : Nat.Coprime p q := (Nat.coprime_primes hp hq).mpr hpq
  have hp1 := hp.two_le
  have hq1 := hq.two_le
  have hQ : 0 < p * q := Nat.mul_pos hp.pos hq.pos
  have f1 : ((p : Nat) : ℤ) ∣ ((q ^ (p - 1) : Nat) : ℤ) - 1 := by
    have := Nat.ModEq.pow_totient hcop.symm
    rw [Nat.totient_prime hp] at this
    exact_mod_cast Nat.modEq_iff_dvd.mp this.symm
  have f2 : ((q : Nat) : ℤ) ∣ ((p ^ (q - 1) : Nat) : ℤ) - 1 := by
    have := Nat.ModEq.pow_totient hcop
    rw [Nat.totient_prime hq] at this
    exact_mod_cast Nat.modEq_iff_dvd.mp this.symm
  have g1 : ((q : Nat) : ℤ) ∣ ((q ^ (p - 1) : Nat) : ℤ) := Int.natCast_dvd_natCast.mpr (dvd_pow_self _ (by omega))
  have g2 : ((p : Nat) : ℤ) ∣ ((p ^ (q - 1) : Nat) : ℤ) := Int.natCast_dvd_natCast.mpr (dvd_pow_self _ (by omega))
  have d1 : ((p * q : Nat) : ℤ) ∣ Int.bmod ((t * q ^ (p - 1) : Nat) : ℤ) (p * q) - ((t * q ^ (p - 1) : Nat) : ℤ) := Int.dvd_bmod_sub_self
  have d2 : ((p * q : Nat) : ℤ) ∣ Int.bmod ((t * p ^ (q - 1) : Nat) : ℤ) (p * q) - ((t * p ^ (q - 1) : Nat) : ℤ) := Int.dvd_bmod_sub_self
  have b1 := Int.bmod_lt (x := ((t * q ^ (p - 1) : Nat) : ℤ)) hQ
  have b2 := Int.le_bmod (x := ((t * q ^ (p - 1) : Nat) : ℤ)) hQ
  have b3 := Int.bmod_lt (x := ((t * p ^ (q - 1) : Nat) : ℤ)) hQ
  have b4 := Int.le_bmod (x := ((t * p ^ (q - 1) : Nat) : ℤ)) hQ
  generalize Int.bmod ((t * q ^ (p - 1) : Nat) : ℤ) (p * q) = D at *
  generalize Int.bmod ((t * p ^ (q - 1) : Nat) : ℤ) (p * q) = E at *
  generalize q ^ (p - 1) = u at *
  generalize p ^ (q - 1) = v at *
  push_cast at d1 d2 b1 b2 b3 b4
  -- divisibility
  have pQ : (p : ℤ) ∣ p * q := dvd_mul_right _ _
  have qQ : (q : ℤ) ∣ p * q := dvd_mul_left _ _
  have qD : (q : ℤ) ∣ D := by
    have := dvd_add (qQ.trans d1) (g1.mul_left (t : ℤ))
    simpa using this
  have pE : (p : ℤ) ∣ E := by
    have := dvd_add (pQ.trans d2) (g2.mul_left (t : ℤ))
    simpa using this
  have pD : (p : ℤ) ∣ D - t := by
    have := dvd_add (pQ.trans d1) (f1.mul_left (t : ℤ))
    refine this.trans (dvd_of_eq ?_)
    ring
  have qE : (q : ℤ) ∣ E - t := by
    have := dvd_add (qQ.trans d2) (f2.mul_left (t : ℤ))
    refine this.trans (dvd_of_eq ?_)
    ring
  have hD0 : D ≠ 0 := by
    rintro rfl
    have : (p : ℤ) ∣ (t : ℤ) := by simpa using pD
    have := Int.natCast_dvd_natCast.mp this
    exact absurd (Nat.le_of_dvd h0 this) (by omega)
  have hsum : ((p : ℤ) * q) ∣ D + E - t := by
    refine IsCoprime.mul_dvd (Nat.isCoprime_iff_coprime.mpr hcop) ?_ ?_
    · have := dvd_add pD pE
      refine this.trans (dvd_of_eq ?_); ring
    · have := dvd_add qD qE
      refine this.trans (dvd_of_eq ?_); ring
  obtain ⟨a, rfl⟩ := qD
  obtain ⟨b, rfl⟩ := pE
  have hb : ((p : ℤ) * q) % 2 = 1 := by
    rw [Int.mul_emod, show (p : ℤ) % 2 = 1 by omega, show (q : ℤ) % 2 = 1 by omega]; rfl
  obtain ⟨m, hm⟩ : ∃ m, (p : ℤ) * q = 2 * m + 1 := ⟨(p : ℤ) * q / 2, by omega⟩
  -- sizes
  have a1 : 2 * |a| + 1 ≤ p := by
    have h1 : 2 * |(q : ℤ) * a| ≤ p * q := by
      have : |(q : ℤ) * a| ≤ m := by rw [hm] at b1 b2 b3 b4; rw [abs_le]; constructor <;> omega
      rw [hm]; omega
    rw [abs_mul, Nat.abs_cast] at h1
    have : 2 * |a| ≤ p := by
      have hq0 : (0 : ℤ) < q := by omega
      nlinarith
    omega
  have a2 : 2 * |b| + 1 ≤ q := by
    have h1 : 2 * |(p : ℤ) * b| ≤ p * q := by
      have : |(p : ℤ) * b| ≤ m := by rw [hm] at b1 b2 b3 b4; rw [abs_le]; constructor <;> omega
      rw [hm]; omega
    rw [abs_mul, Nat.abs_cast] at h1
    have : 2 * |b| ≤ q := by
      have hq0 : (0 : ℤ) < p := by omega
      nlinarith
    omega
  have a3 := abs_le.mp (le_refl |a|)
  have a4 := abs_le.mp (le_refl |b|)
  have c1 : 2 * ((q : ℤ) * a) ≤ q * (p - 1) ∧ -(q * (p - 1) : ℤ) ≤ 2 * (q * a) := by
    have : (0 : ℤ) ≤ q := by omega
    constructor <;> nlinarith
  have c2 : 2 * ((p : ℤ) * b) ≤ p * (q - 1) ∧ -(p * (q - 1) : ℤ) ≤ 2 * (p * b) := by
    have : (0 : ℤ) ≤ p := by omega
    constructor <;> nlinarith
  refine ⟨?_, ?_⟩
  · have : (q : ℤ) * a + p * b - t = 0 := by
      refine Int.eq_zero_of_abs_lt_dvd hsum ?_
      rw [abs_lt]
      constructor <;> nlinarith
    linarith
  · have : a ≠ 0 := by rintro rfl; simp at hD0
    have hq0 : (0 : ℤ) < q := by omega
    rcases lt_or_gt_of_ne this with h | h
    · left; nlinarith
    · right; nlinarith

/-- The numbers of `c120_two`. -/
theorem two_numbers {p q t D E W V e e' x y : ℤ} (hp : 0 < p) (hq : 0 < q) (hp62 : p < 2 ^ 62) (hq62 : q < 2 ^ 62) (ht : 0 < t)
    (hDE : D + E = t) (hW : W * (p * q) = 2 ^ 127 * D + e) (hV : V * (p * q) = 2 ^ 127 * E + e') (e0 : 0 ≤ e) (e1 : e < p * q) (e0' : 0 ≤ e')
    (e1' : e' < p * q) (x0 : 0 ≤ x) (x1 : x < p) (y0 : 0 ≤ y) (y1 : y < q) :
    (D ≤ -q → W < 0 ∧ (y + t < x → x * W + y * V < 0) ∧ (x + t < y → 0 ≤ x * W + y * V)) ∧
    (q ≤ D → 0 < W ∧ (y + t < x → 0 ≤ x * W + y * V) ∧ (x + t < y → x * W + y * V < 0)) := by
  have hQ : 0 < p * q := mul_pos hp hq
  have hQ62 : p * q < 2 ^ 62 * q := mul_lt_mul_of_pos_right hp62 hq
  have xe : x * e ≤ 2 ^ 62 * (2 ^ 62 * q) := mul_le_mul (by linarith) (by linarith) e0 (by positivity)
  have ye : y * e' ≤ 2 ^ 62 * (2 ^ 62 * q) := mul_le_mul (by linarith) (by linarith) e0' (by positivity)
  have xe0 : 0 ≤ x * e := mul_nonneg x0 e0
  have ye0 : 0 ≤ y * e' := mul_nonneg y0 e0'
  have hS : (x * W + y * V) * (p * q) = 2 ^ 127 * (D * (x - y) + t * y) + x * e + y * e' := by
    have : E = t - D := by linarith
    rw [this] at hV
    linear_combination x * hW + y * hV
  have ty : t * y ≤ t * q - t := by nlinarith
  have ty0 : 0 ≤ t * y := by positivity
  have neg : D * (x - y) + t * y ≤ -q → x * W + y * V < 0 := by
    intro h
    by_contra hc
    have : 0 ≤ (x * W + y * V) * (p * q) := mul_nonneg (not_lt.mp hc) hQ.le
    rw [hS] at this
    linarith
  have pos : 0 ≤ D * (x - y) + t * y → 0 ≤ x * W + y * V := by
    intro h
    by_contra hc
    have : (x * W + y * V) * (p * q) < 0 := mul_neg_of_neg_of_pos (not_le.mp hc) hQ
    rw [hS] at this
    linarith
  refine ⟨fun hD => ⟨?_, fun hxy => neg ?_, fun hxy => pos ?_⟩, fun hD => ⟨?_, fun hxy => pos ?_, fun hxy => neg ?_⟩⟩
  · by_contra hc
    have : 0 ≤ W * (p * q) := mul_nonneg (not_lt.mp hc) hQ.le
    rw [hW] at this
    linarith
  · have h1 : t + 1 ≤ x - y := by linarith
    have : D * (x - y) ≤ -q * (t + 1) := by
      have h2 : D * (x - y) ≤ -q * (x - y) := mul_le_mul_of_nonneg_right hD (by linarith)
      have h3 : -q * (x - y) ≤ -q * (t + 1) := mul_le_mul_of_nonpos_left h1 (by linarith)
      linarith
    nlinarith
  · have : 0 ≤ D * (x - y) := mul_nonneg_of_nonpos_of_nonpos (by linarith) (by linarith)
    linarith
  · by_contra hc
    have : W * (p * q) ≤ 0 := mul_nonpos_of_nonpos_of_nonneg (not_lt.mp hc) hQ.le
    rw [hW] at this
    linarith
  · have : 0 ≤ D * (x - y) := mul_nonneg (by linarith) (by linarith)
    linarith
  · have h1 : t + 1 ≤ y - x := by linarith
    have : D * (x - y) ≤ -q * (t + 1) := by
      have h2 : q * (y - x) ≤ D * (y - x) := mul_le_mul_of_nonneg_right hD (by linarith)
      have h3 : q * (t + 1) ≤ q * (y - x) := mul_le_mul_of_nonneg_left h1 hq.le
      linarith
    nlinarith

end Watch

/-- C120: with two moduli the branch shows which of the two residues of the coefficient is the larger one, if they differ by more than `t`. -/
theorem c120_two {p q t : Nat} (hp : p.Prime) (hq : q.Prime) (hp2 : p % 2 = 1) (hq2 : q % 2 = 1) (hpq : p ≠ q) (h0 : 0 < t) (hpt : t < p)
    (hqt : t < q) (hp62 : p < 2 ^ 62) (hq62 : q < 2 ^ 62) :
    leakWeight t [p, q] p ≠ 0 ∧ ∀ x : ℤ, (x % q + t < x % p → leakBit t [p, q] x = decide (leakWeight t [p, q] p < 0)) ∧
      (x % p + t < x % q → leakBit t [p, q] x = decide (0 < leakWeight t [p, q] p)) := by
  have hQ : 0 < [p, q].prod := by simp [hp.pos, hq.pos]
  have eQ : [p, q].prod = p * q := by simp
  obtain ⟨e, e0, e1, hW⟩ := Watch.weight_approx (t := t) hQ p
  obtain ⟨e', e0', e1', hV⟩ := Watch.weight_approx (t := t) hQ q
  obtain ⟨r1, r2⟩ := Watch.two_remainders hp hq hp2 hq2 hpq h0 hpt hqt
  rw [eQ] at e1 hW e1' hV
  rw [Nat.mul_div_cancel_left _ hp.pos] at hW
  rw [Nat.mul_div_cancel _ hq.pos] at hV
  push_cast at e1 hW e1' hV r1 r2
  have hp0 : (0 : ℤ) < p := by exact_mod_cast hp.pos
  have hq0 : (0 : ℤ) < q := by exact_mod_cast hq.pos
  have num : ∀ x : ℤ, _ := fun x => Watch.two_numbers (x := x % p) (y := x % q) hp0 hq0 (by exact_mod_cast hp62) (by exact_mod_cast hq62)
    (by exact_mod_cast h0) r1 hW hV e0 e1 e0' e1' (Int.emod_nonneg _ hp0.ne') (Int.emod_lt_of_pos _ hp0) (Int.emod_nonneg _ hq0.ne')
    (Int.emod_lt_of_pos _ hq0)
  have hbit : ∀ x : ℤ, leakBit t [p, q] x = decide (x % p * leakWeight t [p, q] p + x % q * leakWeight t [p, q] q < 0) := by
    intro x
    simp only [leakBit, List.map_cons, List.map_nil, List.sum_cons, List.sum_nil, add_zero]
  rcases r2 with r2 | r2
  · refine ⟨(((num 0).1 r2).1).ne, fun x => ⟨fun hx => ?_, fun hx => ?_⟩⟩ <;> rw [hbit]
    · rw [decide_eq_true (((num x).1 r2).2.1 hx), decide_eq_true ((num x).1 r2).1]
    · rw [decide_eq_false (not_lt.mpr (((num x).1 r2).2.2 hx)), decide_eq_false (not_lt.mpr ((num x).1 r2).1.le)]
  · refine ⟨(((num 0).2 r2).1).ne', fun x => ⟨fun hx => ?_, fun hx => ?_⟩⟩ <;> rw [hbit]
    · rw [decide_eq_false (not_lt.mpr (((num x).2 r2).2.1 hx)), decide_eq_false (not_lt.mpr ((num x).2 r2).1.le)]
    · rw [decide_eq_true (((num x).2 r2).2.2 hx), decide_eq_true ((num x).2 r2).1]

/-- C120: at a level decryption has the same trace for all keys and ciphertexts exactly when no weight is negative. -/
theorem c120_constant (h : IsParams N t l variance P) {i : Nat} (hi : i < l.length) :
    (∀ (sk sk' : SecretKey) (fs gs : List (Rg N)) (ct ct' : BfvCipherText), IsKey P sk → IsKey P sk' → sk.coeffs.length = sk'.coeffs.length →
      fs ≠ [] → fs.length = gs.length → IsCt P i fs ct → IsCt P i gs ct' → (sk.decryptL .release ct).trace = (sk'.decryptL .release ct').trace) ↔
    ∀ q ∈ levelModuli l i, 0 ≤ leakWeight t (levelModuli l i) q := by
  have hN : 0 < N := by
    obtain ⟨K, ext, rfl, -⟩ := BfvP.params h
    positivity
  have hcop : (levelModuli l i).Pairwise Nat.Coprime := by
    obtain ⟨K, ext, rfl, hw, rfl, rfl, -⟩ := BfvP.params h
    obtain ⟨L, hL⟩ := hw.levels i hi
    have := hL.wf.ctx.cop
    rwa [hL.wf.mods] at this
  rw [← Watch.bit_constant hcop fun q hq => (Watch.moduli h hq).1]
  constructor
  · intro hall x
    have hk : IsKey P ⟨P, []⟩ := ⟨rfl, Nat.zero_le _, by simp⟩
    obtain ⟨p, hp⟩ := c33_exists_poly h hi ((x : ℤ) : Rg N)
    obtain ⟨p0, hp0⟩ := c33_exists_poly h hi ((0 : ℤ) : Rg N)
    have hct : IsCt P i [((x : ℤ) : Rg N)] ⟨P, [p], i⟩ := ⟨rfl, rfl, .cons hp .nil⟩
    have hct0 : IsCt P i [((0 : ℤ) : Rg N)] ⟨P, [p0], i⟩ := ⟨rfl, rfl, .cons hp0 .nil⟩
    obtain ⟨pt, pt', tr, tr', h1, h2, h3⟩ := c120_trace h hk hk rfl (by simp) (by simp) hct hct0
    have he := hall _ _ _ _ _ _ hk hk rfl (by simp) (by simp) hct hct0
    rw [h1, h2] at he
    have := h3.mp he 0 hN
    simp only [phase, mul_zero, add_zero] at this
    rw [cf_int hN, cf_int hN, if_pos rfl, if_pos rfl] at this
    rw [this]
    simp [leakBit]
  · intro hb sk sk' fs gs ct ct' hk hk' hl hne hn hct hct'
    obtain ⟨pt, pt', tr, tr', h1, h2, h3⟩ := c120_trace h hk hk' hl hne hn hct hct'
    rw [h1, h2]
    exact h3.mpr fun k _ => by rw [hb, hb]

/-- C120: with one modulus, at the last level, the branches show nothing. -/
theorem c120_last (h : IsParams N t l variance P) (h2t : 2 * t ≤ l.getD 0 0) {i : Nat} (hi : i + 1 = l.length) {sk sk' : SecretKey} (hk : IsKey P sk)
    (hk' : IsKey P sk') (hl : sk.coeffs.length = sk'.coeffs.length) {fs gs : List (Rg N)} (hne : fs ≠ []) (hn : fs.length = gs.length)
    {ct ct' : BfvCipherText} (hct : IsCt P i fs ct) (hct' : IsCt P i gs ct') : (sk.decryptL .release ct).trace = (sk'.decryptL .release ct').trace := by
  refine (c120_constant h (by omega)).mpr ?_ sk sk' fs gs ct ct' hk hk' hl hne hn hct hct'
  obtain ⟨q, rest, rfl⟩ : ∃ q rest, l = q :: rest := by
    cases l with
    | nil => simp at hi
    | cons q rest => exact ⟨q, rest, rfl⟩
  have e : levelModuli (q :: rest) i = [q] := by
    unfold levelModuli
    rw [← hi, Nat.add_sub_cancel_left]
    rfl
  rw [e]
  intro r hr
  have hr' : r = q := by simpa using hr
  subst hr'
  obtain ⟨h1, h2, h3, -⟩ := Watch.moduli h (i := i) (q := r) (by rw [e]; simp)
  have h2t' : 2 * t ≤ r := by simpa using h2t
  unfold leakWeight
  rw [show [r].prod = r by simp, Nat.div_self h1.pos, one_pow, mul_one, Int.bmod_eq_of_le (by omega) (by omega)]
  have : -(2 ^ 127 * (t : ℤ)) / (r : ℤ) ≤ 0 := Int.ediv_nonpos_of_nonpos_of_neg (by nlinarith [Int.natCast_nonneg t]) (by have := h1.pos; omega)
  omega

namespace Watch

/-- A ciphertext the trace of which shows for every coefficient of the key whether it is below a threshold. -/
theorem exists_ask {p q : Nat} {rest : List Nat} (h : IsParams N t (p :: q :: rest) variance P) {B : Nat} (hp : 4 * B + 2 * t + 2 < p)
    (hq : 2 * B + t + 1 < q) (θ : Nat → ℤ) :
    ∃ (f g : Rg N) (ct : BfvCipherText), IsCt P rest.length [f, g] ct ∧ ∀ sk : SecretKey, ∀ k, k < N → |sk.coeffs.getD k 0| ≤ B → -(B : ℤ) ≤ θ k →
      θ k ≤ B + 1 → (leakBit t [p, q] (cf (phase (keyRing N sk) [f, g]) k) = decide (leakWeight t [p, q] p < 0) ↔ sk.coeffs.getD k 0 < θ k) := by
  have hN : 0 < N := by
    obtain ⟨K, ext, rfl, -⟩ := BfvP.params h
    positivity
  have e : levelModuli (p :: q :: rest) rest.length = [p, q] := by
    unfold levelModuli
    rw [show (p :: q :: rest).length - rest.length = 2 by simp only [List.length_cons]; omega]
    rfl
  obtain ⟨p1, p2, p3, p4⟩ := moduli h (i := rest.length) (q := p) (by rw [e]; simp)
  obtain ⟨q1, q2, q3, q4⟩ := moduli h (i := rest.length) (q := q) (by rw [e]; simp)
  have hi : rest.length < (p :: q :: rest).length := by simp
  have ht : 0 < t := by
    obtain ⟨K, ext, rfl, hw, rfl, -, -⟩ := BfvP.params h
    exact hw.t_prime.pos
  have hcop : [p, q].Pairwise Nat.Coprime := by
    obtain ⟨K, ext, rfl, hw, rfl, hP, -⟩ := BfvP.params h
    obtain ⟨L, hL⟩ := hw.levels rest.length (by rw [hP]; exact hi)
    have := hL.wf.ctx.cop
    rw [hL.wf.mods, hP] at this
    rw [← e]
    exact this
  have hpr : ∀ r ∈ [p, q], r.Prime := by simp [p1, q1]
  have hpq : p ≠ q := by
    rintro rfl
    have : Nat.Coprime p p := by simpa using hcop
    exact p1.ne_one (by simpa using this)
  have u1 := unit_one hcop hpr (q := p) (by simp)
  have u2 := unit_zero hpr (q := p) (r := q) (by simp) (by simp) hpq.symm
  have v1 := unit_one hcop hpr (q := q) (by simp)
  have v2 := unit_zero hpr (q := q) (r := p) (by simp) (by simp) hpq
  generalize ([p, q].prod / p) ^ (p - 1) = u at u1 u2
  generalize ([p, q].prod / q) ^ (q - 1) = v at v1 v2
  have cu1 : ((u : Nat) : ℤ) ≡ 1 [ZMOD p] := by
    rw [Int.ModEq, ← Int.natCast_emod, u1, Int.emod_eq_of_lt (by norm_num) (by exact_mod_cast p1.one_lt)]; rfl
  have cu2 : ((u : Nat) : ℤ) ≡ 0 [ZMOD q] := (Int.modEq_zero_iff_dvd).mpr (Int.natCast_dvd_natCast.mpr u2)
  have cv1 : ((v : Nat) : ℤ) ≡ 1 [ZMOD q] := by
    rw [Int.ModEq, ← Int.natCast_emod, v1, Int.emod_eq_of_lt (by norm_num) (by exact_mod_cast q1.one_lt)]; rfl
  have cv2 : ((v : Nat) : ℤ) ≡ 0 [ZMOD p] := (Int.modEq_zero_iff_dvd).mpr (Int.natCast_dvd_natCast.mpr v2)
  let f : Rg N := ofCoeffs N fun k => -((u : ℤ) * θ k) + v * (2 * B + t + 1 : Nat)
  obtain ⟨a, ha⟩ := c33_exists_poly h hi f
  obtain ⟨b, hb⟩ := c33_exists_poly h hi ((u : ℤ) : Rg N)
  refine ⟨f, ((u : ℤ) : Rg N), ⟨P, [a, b], rest.length⟩, ⟨rfl, rfl, .cons ha (.cons hb .nil)⟩, fun sk k hk hs h1 h2 => ?_⟩
  obtain ⟨w0, w1⟩ := c120_two p1 q1 p2 q2 hpq ht p3 q3 p4 q4
  have hcf : cf (phase (keyRing N sk) [f, ((u : ℤ) : Rg N)]) k = u * (sk.coeffs.getD k 0 - θ k) + v * (2 * B + t + 1 : Nat) := by
    have e : phase (keyRing N sk) [f, ((u : ℤ) : Rg N)] = f + ((u : ℤ) : Rg N) * keyRing N sk := by simp only [phase]; ring
    rw [e, cf_add hN, cf_int_mul hN, keyRing, cf_ofCoeffs hN _ hk, cf_ofCoeffs hN _ hk]
    ring
  rw [hcf]
  have hs' := abs_le.mp hs
  generalize sk.coeffs.getD k 0 = s at *
  generalize hx : (u : ℤ) * (s - θ k) + v * (2 * B + t + 1 : Nat) = x
  have xq : x % q = (2 * B + t + 1 : Nat) := by
    have : x ≡ ((2 * B + t + 1 : Nat) : ℤ) [ZMOD q] := by
      rw [← hx]
      have := (cu2.mul_right (s - θ k)).add (cv1.mul_right ((2 * B + t + 1 : Nat) : ℤ))
      simpa using this
    rw [this, Int.emod_eq_of_lt (by positivity) (by exact_mod_cast hq)]
  have xp : x ≡ s - θ k [ZMOD p] := by
    rw [← hx]
    have := (cu1.mul_right (s - θ k)).add (cv2.mul_right ((2 * B + t + 1 : Nat) : ℤ))
    simpa using this
  by_cases hlt : s < θ k
  · have : x % p = s - θ k + p := by
      rw [xp, ← Int.add_emod_right, Int.emod_eq_of_lt (by omega) (by omega)]
    rw [(w1 x).1 (by rw [xq, this]; push_cast; omega)]
    simp [hlt]
  · have : x % p = s - θ k := by
      rw [xp, Int.emod_eq_of_lt (by omega) (by omega)]
    rw [(w1 x).2 (by rw [xq, this]; push_cast; omega)]
    simp only [hlt, iff_false]
    rcases lt_or_gt_of_ne w0 with hw | hw
    · rw [decide_eq_false (not_lt.mpr hw.le), decide_eq_true hw]; simp
    · rw [decide_eq_true hw, decide_eq_false (not_lt.mpr hw.le)]; simp

/-- Bisection of all coefficients at once; `below tr k` tells whether the trace shows that the coefficient `k` is below its threshold. -/
def bisect (N : Nat) (ask : (Nat → ℤ) → BfvCipherText) (below : List Event → Nat → Bool) : (rounds L : Nat) → (Nat → ℤ) → Watches (List ℤ)
  | 0, _, lo => .ret ((List.range N).map lo)
  | r + 1, L, lo => .watch (ask fun k => lo k + (L / 2 : Nat)) fun tr =>
      bisect N ask below r (L - L / 2) fun k => if below tr k then lo k else lo k + (L / 2 : Nat)

theorem sees {ask : (Nat → ℤ) → BfvCipherText} {below : List Event → Nat → Bool} {sk : SecretKey} {B : Nat} (hlen : sk.coeffs.length = N)
    (hask : ∀ θ : Nat → ℤ, (∀ k, k < N → -(B : ℤ) ≤ θ k ∧ θ k ≤ B + 1) → ∃ pt tr, sk.decryptL .release (ask θ) = ⟨.ok pt, tr⟩ ∧
      ∀ k, k < N → (below tr k = true ↔ sk.coeffs.getD k 0 < θ k)) :
    ∀ (r L : Nat) (lo : Nat → ℤ), L ≤ 2 ^ r → (∀ k, k < N → -(B : ℤ) ≤ lo k ∧ lo k ≤ sk.coeffs.getD k 0 ∧ sk.coeffs.getD k 0 < lo k + (L : Nat) ∧ lo k + (L : Nat) ≤ B + 1) →
      Sees sk (bisect N ask below r L lo) sk.coeffs r
  | 0, L, lo, hr, hlo => by
      have e : (List.range N).map lo = sk.coeffs := by
        refine List.ext_getElem (by simp [hlen]) fun k h1 h2 => ?_
        rw [List.getElem_map, List.getElem_range, ← List.getD_eq_getElem _ 0 h2]
        obtain ⟨-, g1, g2, -⟩ := hlo k (by simpa using h1)
        have : (L : ℤ) ≤ 1 := by exact_mod_cast hr
        omega
      unfold bisect
      rw [e]
      exact .ret _
  | r + 1, L, lo, hr, hlo => by
      obtain ⟨pt, tr, g1, g2⟩ := hask (fun k => lo k + (L / 2 : Nat)) fun k hk => by
        obtain ⟨a1, a2, a3, a4⟩ := hlo k hk
        constructor <;> omega
      rw [pow_succ] at hr
      refine .watch g1 (sees hlen hask r (L - L / 2) _ (by omega) fun k hk => ?_)
      obtain ⟨a1, a2, a3, a4⟩ := hlo k hk
      have e : ((L - L / 2 : Nat) : ℤ) = L - (L / 2 : Nat) := by omega
      have g := g2 k hk
      by_cases hb : below tr k = true
      · rw [if_pos hb]
        have := g.mp hb
        refine ⟨?_, ?_, ?_, ?_⟩ <;> omega
      · rw [if_neg hb]
        have : ¬ sk.coeffs.getD k 0 < lo k + (L / 2 : Nat) := fun hc => hb (g.mpr hc)
        refine ⟨?_, ?_, ?_, ?_⟩ <;> omega

/-- The keys that a program finds out with at most `k` decryptions. -/
theorem count (h : IsParams N t l variance P) {B : Nat} (hB : B < 2 ^ 63) {prog : Watches (List ℤ)}
    (hA : prog.All fun ct => ∃ i, ∃ fs : List (Rg N), fs ≠ [] ∧ IsCt P i fs ct) :
    ∀ (k : Nat) (S : Finset (List ℤ)), (∀ s ∈ S, s.length = N ∧ (∀ x ∈ s, |x| ≤ B) ∧ ∃ n, n ≤ k ∧ Sees ⟨P, s⟩ prog s n) → S.card ≤ 2 ^ (N * k) := by
  classical
  induction hA with
  | ret a =>
    intro k S hS
    have : S ⊆ {a} := by
      intro s hs
      obtain ⟨-, -, n, -, hp⟩ := hS s hs
      cases hp
      simp
    calc S.card ≤ 1 := by simpa using Finset.card_le_card this
      _ ≤ _ := Nat.one_le_pow _ _ (by positivity)
  | @watch ct next hct _ ih =>
    intro k S hS
    obtain ⟨i, fs, hne, hct⟩ := hct
    cases k with
    | zero =>
      have : S = ∅ := by
        refine Finset.eq_empty_of_forall_notMem fun s hs => ?_
        obtain ⟨-, -, n, hn, hp⟩ := hS s hs
        cases hp
        omega
      rw [this]
      simp
    | succ k =>
      have hkey : ∀ s ∈ S, IsKey P ⟨P, s⟩ := by
        intro s hs
        obtain ⟨h1, h2, -⟩ := hS s hs
        refine ⟨rfl, ?_, fun x hx => ?_⟩
        · obtain ⟨K, ext, rfl, hw, rfl, rfl, -⟩ := BfvP.params h
          rw [hw.deg]
          exact h1.le
        · have := abs_le.mp (h2 x hx)
          have : (B : ℤ) < 2 ^ 63 := by exact_mod_cast hB
          constructor <;> omega
      let bits : List ℤ → (Fin N → Bool) := fun s k => leakBit t (levelModuli l i) (cf (phase (keyRing N ⟨P, s⟩) fs) k)
      have hfib : ∀ b ∈ (Finset.univ : Finset (Fin N → Bool)), (S.filter fun s => bits s = b).card ≤ 2 ^ (N * k) := by
        intro b _
        rcases (S.filter fun s => bits s = b).eq_empty_or_nonempty with he | ⟨s0, hs0⟩
        · rw [he]; simp
        obtain ⟨h0, hb0⟩ := Finset.mem_filter.mp hs0
        refine ih (SecretKey.decryptL .release ⟨P, s0⟩ ct).trace k _ fun s hs => ?_
        obtain ⟨h1, hb1⟩ := Finset.mem_filter.mp hs
        obtain ⟨g1, g2, n, g3, g4⟩ := hS s h1
        refine ⟨g1, g2, ?_⟩
        obtain ⟨pt, pt', tr, tr', d1, d2, d3⟩ := c120_trace h (hkey s h1) (hkey s0 h0) (g1.trans (hS s0 h0).1.symm) hne rfl hct hct
        have : tr = tr' := d3.mpr fun k hk => congrFun (hb1.trans hb0.symm) ⟨k, hk⟩
        cases g4 with
        | watch w1 w2 =>
          rw [d1] at w1
          have e := congrArg Lk.trace w1
          rw [d2]
          refine ⟨_, ?_, by rw [← this]; have e' : tr = _ := e; rw [e']; exact w2⟩
          omega
      have := Finset.card_le_mul_card_image_of_maps_to (f := bits) (s := S) (t := Finset.univ) (fun _ _ => Finset.mem_univ _) _ hfib
      rw [Finset.card_univ, Fintype.card_fun, Fintype.card_bool, Fintype.card_fin] at this
      calc S.card ≤ _ := this
        _ = _ := by rw [Nat.mul_succ, pow_add]

end Watch

/-- C120: at the level with two moduli a program that depends on the parameters and the bound `B` only finds out every key with coefficients in `[-B, B]`
from the traces of `⌈log₂ (2B+1)⌉` decryptions of ciphertexts it chooses, without seeing what they decrypt to. -/
theorem c120_read {p q : Nat} {rest : List Nat} (h : IsParams N t (p :: q :: rest) variance P) {B : Nat} (hp : 4 * B + 2 * t + 2 < p)
    (hq : 2 * B + t + 1 < q) :
    ∃ prog : Watches (List ℤ), (prog.All fun ct => ∃ f g : Rg N, IsCt P rest.length [f, g] ct) ∧
      ∀ sk : SecretKey, IsKey P sk → sk.coeffs.length = N → (∀ x ∈ sk.coeffs, |x| ≤ B) → Sees sk prog sk.coeffs (Nat.clog 2 (2 * B + 1)) := by
  classical
  have e : levelModuli (p :: q :: rest) rest.length = [p, q] := by
    unfold levelModuli
    rw [show (p :: q :: rest).length - rest.length = 2 by simp only [List.length_cons]; omega]
    rfl
  choose f g ask hct hask using Watch.exists_ask h hp hq
  let below : List Event → Nat → Bool := fun tr k => decide (∃ (sk : SecretKey) (θ : Nat → ℤ), IsKey P sk ∧ sk.coeffs.length = N ∧
    (sk.decryptL .release (ask θ)).trace = tr ∧ leakBit t [p, q] (cf (phase (keyRing N sk) [f θ, g θ]) k) = decide (leakWeight t [p, q] p < 0))
  have hbelow : ∀ (sk : SecretKey), IsKey P sk → sk.coeffs.length = N → ∀ θ k, k < N → (below (sk.decryptL .release (ask θ)).trace k = true ↔
      leakBit t [p, q] (cf (phase (keyRing N sk) [f θ, g θ]) k) = decide (leakWeight t [p, q] p < 0)) := by
    intro sk hk hl θ k hkN
    simp only [below, decide_eq_true_eq]
    constructor
    · rintro ⟨sk', θ', h1, h2, h3, h4⟩
      obtain ⟨pt, pt', tr, tr', d1, d2, d3⟩ := c120_trace h hk h1 (hl.trans h2.symm) (by simp) (by simp) (hct θ) (hct θ')
      rw [d1, d2] at h3
      rw [e] at d3
      rw [d3.mp h3.symm k hkN]
      exact h4
    · intro hb
      exact ⟨sk, θ, hk, hl, rfl, hb⟩
  refine ⟨Watch.bisect N ask below (Nat.clog 2 (2 * B + 1)) (2 * B + 1) fun _ => -(B : ℤ), ?_, fun sk hk hl hb => ?_⟩
  · have : ∀ r L lo, (Watch.bisect N ask below r L lo).All fun ct => ∃ f g : Rg N, IsCt P rest.length [f, g] ct := by
      intro r
      induction r with
      | zero => exact fun _ _ => .ret _
      | succ r ih => exact fun _ _ => .watch ⟨_, _, hct _⟩ fun _ => ih _ _
    exact this _ _ _
  · have hb' : ∀ k, |sk.coeffs.getD k 0| ≤ B := by
      intro k
      rw [List.getD_eq_getElem?_getD]
      rcases hx : sk.coeffs[k]? with _ | x
      · simp
      · exact hb x (List.mem_of_getElem? hx)
    refine Watch.sees (B := B) hl (fun θ hθ => ?_) _ _ _ (Nat.le_pow_clog (by decide) _) fun k hk => ?_
    · obtain ⟨pt, pt', tr, tr', d1, -, -⟩ := c120_trace h hk hk rfl (by simp) rfl (hct θ) (hct θ)
      refine ⟨pt, tr, d1, fun k hkN => ?_⟩
      have := hbelow sk hk hl θ k hkN
      rw [d1] at this
      rw [this, hask θ sk k hkN (hb' k) (hθ k hkN).1 (hθ k hkN).2]
    · have := abs_le.mp (hb' k)
      refine ⟨le_rfl, this.1, ?_, ?_⟩ <;> push_cast <;> linarith

/-- C120: the keys that `SecretKey::generate` makes. -/
theorem c120_generated {p q : Nat} {rest : List Nat} (h : IsParams N t (p :: q :: rest) variance P) (hv1 : 1 ≤ variance) (hv2 : variance ≤ 16)
    (hp : 8 * variance + 2 * t + 2 < p) (hq : 4 * variance + t + 1 < q) :
    ∃ prog : Watches (List ℤ), ∀ (pr : Profile) (rng : Nat → Nat), (∀ i, rng i < 2 ^ 64) → ∃ sk, SecretKey.generate pr P rng = .ok sk ∧
      Sees sk prog sk.coeffs (Nat.clog 2 (4 * variance + 1)) := by
  obtain ⟨prog, -, hr⟩ := c120_read h (B := 2 * variance) (by omega) (by omega)
  refine ⟨prog, fun pr rng hrng => ?_⟩
  obtain ⟨sk, h1, h2, -⟩ := c30_generate h pr hv1 hv2 hrng
  have hc : sk.coeffs = (List.range N).map (cbdValue rng variance) := by
    obtain ⟨K, ext, rfl, hw, rfl, -, rfl⟩ := BfvP.params h
    unfold SecretKey.generate at h1
    rw [sampleVecCbd_ok pr hrng hv1 hv2, res_ok_bind] at h1
    rw [← Except.ok.inj h1, hw.deg]
  refine ⟨sk, h1, ?_⟩
  have := hr sk h2 (by rw [hc]; simp) (fun x hx => by
    rw [hc, List.mem_map] at hx
    obtain ⟨k, -, rfl⟩ := hx
    have := abs_le.mpr (cbdValue_bound rng variance k)
    push_cast
    exact this)
  rwa [show 2 * (2 * variance) + 1 = 4 * variance + 1 by ring] at this

/-- C120: one decryption of a well-formed ciphertext, of any level and length, shows at most `N` bits, so no program finds out all keys with coefficients in
`[-B, B]` from fewer than `log₂ (2B+1)` decryptions. -/
theorem c120_optimal (h : IsParams N t l variance P) {B : Nat} (hB : B < 2 ^ 63) {prog : Watches (List ℤ)}
    (hA : prog.All fun ct => ∃ i, ∃ fs : List (Rg N), fs ≠ [] ∧ IsCt P i fs ct) {k : Nat}
    (hP : ∀ s : List ℤ, s.length = N → (∀ x ∈ s, |x| ≤ B) → ∃ n, n ≤ k ∧ Sees ⟨P, s⟩ prog s n) : 2 * B + 1 ≤ 2 ^ k := by
  classical
  have hN : 0 < N := by
    obtain ⟨K, ext, rfl, -⟩ := BfvP.params h
    positivity
  let g : (Fin N → Fin (2 * B + 1)) → List ℤ := fun f => List.ofFn fun k => ((f k : Nat) : ℤ) - B
  have hinj : Function.Injective g := by
    intro f f' hf
    have := List.ofFn_injective hf
    funext k
    have := congrFun this k
    exact Fin.ext (by simpa using this)
  have h := Watch.count h hB hA k (Finset.univ.image g) fun s hs => by
    obtain ⟨f, -, rfl⟩ := Finset.mem_image.mp hs
    have hx : ∀ x ∈ g f, |x| ≤ B := fun x hx => by
      obtain ⟨k, rfl⟩ := List.mem_ofFn.mp hx
      have := (f k).isLt
      rw [abs_le]
      constructor <;> omega
    exact ⟨by simp [g], hx, hP _ (by simp [g]) hx⟩
  rw [Finset.card_image_of_injective _ hinj, Finset.card_univ, Fintype.card_fun, Fintype.card_fin, Fintype.card_fin, Nat.mul_comm N k, pow_mul] at h
  exact (Nat.pow_le_pow_iff_left hN.ne').mp h

/-- With the example parameters the traces of 6 decryptions give a generated key of 8 coefficients away and no program does with less than 6. -/
example : ∃ P, IsParams 8 17 Ex.mods 10 P ∧ (∃ prog : Watches (List ℤ), ∃ sk, SecretKey.generate .release P (fun i => i % 1000) = .ok sk ∧
      Sees sk prog sk.coeffs 6) ∧
    ∀ (prog : Watches (List ℤ)) (k : Nat), (prog.All fun ct => ∃ i, ∃ fs : List (Rg 8), fs ≠ [] ∧ IsCt P i fs ct) →
      (∀ s : List ℤ, s.length = 8 → (∀ x ∈ s, |x| ≤ (20 : Nat)) → ∃ n, n ≤ k ∧ Sees ⟨P, s⟩ prog s n) → 6 ≤ k := by
  obtain ⟨P, h⟩ := Ex.exists_params
  refine ⟨P, h, ?_, fun prog k hA hk => ?_⟩
  · obtain ⟨prog, hp⟩ := c120_generated (p := 1048609) (q := 1048721) (rest := [1048897]) h (by norm_num) (by norm_num) (by norm_num) (by norm_num)
    obtain ⟨sk, h1, h2⟩ := hp .release _ Ex.wordTape
    refine ⟨prog, sk, h1, ?_⟩
    rwa [show Nat.clog 2 (4 * 10 + 1) = 6 by rw [show (4 * 10 + 1 : Nat) = 41 from rfl, Oracle.clog_eq (y := 5) (by norm_num) (by norm_num)]] at h2
  · have h1 := c120_optimal h (B := 20) (by norm_num) hA hk
    by_contra hlt
    have h2 : 2 ^ k ≤ 2 ^ 5 := Nat.pow_le_pow_right (by decide) (by omega)
    norm_num at h1 h2
    omega

/-- The bit for two coefficients whose residues modulo 13 and 29 are 2 and 20, and 12 and 1. -/
example : leakBit 3 [13, 29] 223 = true ∧ leakBit 3 [13, 29] 233 = false := by decide +kernel

end OnionPIR
