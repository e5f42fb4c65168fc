import Verif.Spec.ClientReaction
import Verif.Props.Decrypt
import Verif.Props.Oracle
/-
C119 (src/bfv.rs): who sees only whether the owner of a key accepts what chosen ciphertexts decrypt to can read the key.
-/
namespace OnionPIR
open Rg Spec

variable {N t : Nat} {l : List Nat} {variance : Nat} {P : BfvParameters}

namespace ClientReaction

/-- The numbers: with `c = 2 q4 + 8` and `D = E + q4 + 4`, a coefficient `x` below `0` stays within the rounding threshold, others leave it. -/
theorem numbers {Q t B q4 E r x y : ℤ} (ht : 3 ≤ t) (hB : 1 ≤ B) (hB2 : B ≤ 2 ^ 20) (hQ : 64 * B * t ≤ Q) (h1 : 2 ^ 32 * (t * q4) ≤ Q)
    (h2 : Q < 2 ^ 32 * (t * q4) + 2 ^ 32 * t) (h0 : 0 ≤ q4) (e1 : 2 * (t * E) ≤ Q) (e2 : Q < 2 * (t * E) + 2 * t) (r0 : 0 ≤ r) (r1 : r < t)
    (x1 : -(2 * B + 1) ≤ x) (x2 : x ≤ 2 * B + 1) (y1 : -B ≤ y) (y2 : y ≤ B) :
    (x < 0 → 2 ^ 32 * |-r + t * (E + q4 + 4 + (2 * q4 + 8) * x)| < Q * (2 ^ 31 - 1)) ∧
    (0 ≤ x → Q * (2 ^ 31 + 1) < 2 ^ 32 * |-r + t * (E + q4 + 4 + (2 * q4 + 8) * x)| ∧
      |-r + t * (E + q4 + 4 + (2 * q4 + 8) * x)| ≤ Q * (t - 1)) ∧
    2 ^ 32 * |-r + t * ((2 * q4 + 8) * y)| < Q * (2 ^ 31 - 1) := by
  obtain ⟨X, hX⟩ : ∃ X, t * q4 = X := ⟨_, rfl⟩
  obtain ⟨Y, hY⟩ : ∃ Y, t * E = Y := ⟨_, rfl⟩
  obtain ⟨Z, hZ⟩ : ∃ Z, B * t = Z := ⟨_, rfl⟩
  obtain ⟨W, hW⟩ : ∃ W, B * X = W := ⟨_, rfl⟩
  have X0 : 0 ≤ X := by rw [← hX]; positivity
  have Z1 : t ≤ Z := by rw [← hZ]; nlinarith
  have W1 : W ≤ 2 ^ 20 * X := by rw [← hW]; exact mul_le_mul_of_nonneg_right hB2 X0
  have W2 : X ≤ W := by rw [← hW]; nlinarith
  have C0 : 0 ≤ 2 * X + 8 * t := by positivity
  rw [hX] at h1 h2
  rw [hY] at e1 e2
  have hQ' : 64 * Z ≤ Q := by rw [← hZ]; linarith
  have Q0 : 0 ≤ Q := by linarith
  -- the products
  have p1 : (2 * X + 8 * t) * x ≤ (2 * X + 8 * t) * (2 * B + 1) := mul_le_mul_of_nonneg_left x2 C0
  have p2 : -((2 * X + 8 * t) * (2 * B + 1)) ≤ (2 * X + 8 * t) * x := by
    have := mul_le_mul_of_nonneg_left x1 C0
    linarith
  have p3 : (2 * X + 8 * t) * (2 * B + 1) = 4 * W + 2 * X + 16 * Z + 8 * t := by rw [← hW, ← hZ]; ring
  have p4 : (2 * X + 8 * t) * y ≤ (2 * X + 8 * t) * B := mul_le_mul_of_nonneg_left y2 C0
  have p5 : -((2 * X + 8 * t) * B) ≤ (2 * X + 8 * t) * y := by
    have := mul_le_mul_of_nonneg_left y1 C0
    linarith
  have p6 : (2 * X + 8 * t) * B = 2 * W + 8 * Z := by rw [← hW, ← hZ]; ring
  have v1 : -r + t * (E + q4 + 4 + (2 * q4 + 8) * x) = -r + Y + X + 4 * t + (2 * X + 8 * t) * x := by rw [← hX, ← hY]; ring
  have v2 : -r + t * ((2 * q4 + 8) * y) = -r + (2 * X + 8 * t) * y := by rw [← hX]; ring
  rw [v1, v2]
  obtain ⟨u, hu⟩ : ∃ u, (2 * X + 8 * t) * x = u := ⟨_, rfl⟩
  obtain ⟨w, hw⟩ : ∃ w, (2 * X + 8 * t) * y = w := ⟨_, rfl⟩
  have hx1 : x < 0 → u ≤ -(2 * X + 8 * t) := fun hx => by
    rw [← hu]
    have : (2 * X + 8 * t) * x ≤ (2 * X + 8 * t) * (-1) := mul_le_mul_of_nonneg_left (by omega) C0
    linarith
  have hx2 : 0 ≤ x → 0 ≤ u := fun hx => by rw [← hu]; exact mul_nonneg C0 hx
  rw [hu] at p1 p2 ⊢
  rw [hw] at p4 p5 ⊢
  rw [p3] at p1 p2
  rw [p6] at p4 p5
  have hQt : 2 * Q ≤ Q * (t - 1) := by nlinarith
  clear hX hY hZ hW hu hw v1 v2 p3 p6
  refine ⟨fun hx => ?_, fun hx => ?_, ?_⟩
  · have := hx1 hx
    have : |-r + Y + X + 4 * t + u| ≤ max (Y - X - 4 * t) (5 * t + 4 * W + 2 * X + 16 * Z + 8 * t) := by
      rw [abs_le]
      constructor
      · have := le_max_right (Y - X - 4 * t) (5 * t + 4 * W + 2 * X + 16 * Z + 8 * t)
        linarith
      · have := le_max_left (Y - X - 4 * t) (5 * t + 4 * W + 2 * X + 16 * Z + 8 * t)
        linarith
    rcases max_cases (Y - X - 4 * t) (5 * t + 4 * W + 2 * X + 16 * Z + 8 * t) with ⟨e, -⟩ | ⟨e, -⟩ <;> rw [e] at this <;> linarith
  · have := hx2 hx
    rw [abs_of_nonneg (by linarith)]
    constructor <;> linarith
  · have : |-r + w| ≤ t + 2 * W + 8 * Z := by
      rw [abs_le]
      constructor <;> linarith
    linarith

variable {msg : List Nat} {i B : Nat}

/-- For every coefficient and every threshold there is a ciphertext that is accepted by just the keys whose coefficient is below the threshold. -/
theorem exists_ask (h : IsParams N t l variance P) (h2t : 2 * t ≤ l.getD 0 0) (hi : i < l.length) (hm : IsVec t N msg) (hB : 1 ≤ B) (hB2 : B ≤ 2 ^ 20)
    (hQ : 64 * B * t ≤ levelQ l i) {j : Nat} (hj : j < N) (θ : ℤ) (hθ1 : -(B : ℤ) ≤ θ) (hθ2 : θ ≤ B + 1) :
    ∃ ct : BfvCipherText, ∀ (pr : Profile) (sk : SecretKey), IsKey P sk → (∀ k, |sk.coeffs.getD k 0| ≤ B) →
      ∃ pt, sk.decrypt pr ct = .ok pt ∧ (pt.values = msg ↔ sk.coeffs.getD j 0 < θ) := by
  have hN : 0 < N := by omega
  have ht : 3 ≤ t := by
    obtain ⟨K, ext, rfl, hw, rfl, rfl, -⟩ := BfvP.params h
    have h1 := hw.t_cong
    have h2 := hw.three
    have h3 : 2 ^ 3 ≤ 2 ^ K := Nat.pow_le_pow_right (by decide) h2
    by_contra hlt
    have h4 := hw.t_prime.two_le
    rw [Nat.mod_eq_of_lt (by omega)] at h1
    omega
  obtain ⟨q4, hq4⟩ : ∃ q4, levelQ l i / (2 ^ 32 * t) = q4 := ⟨_, rfl⟩
  obtain ⟨E, hE⟩ : ∃ E, levelQ l i / (2 * t) = E := ⟨_, rfl⟩
  have a1 := Nat.div_mul_le_self (levelQ l i) (2 ^ 32 * t)
  have a2 := Nat.lt_div_mul_add (a := levelQ l i) (b := 2 ^ 32 * t) (by omega)
  have b1 := Nat.div_mul_le_self (levelQ l i) (2 * t)
  have b2 := Nat.lt_div_mul_add (a := levelQ l i) (b := 2 * t) (by omega)
  rw [hq4] at a1 a2
  rw [hE] at b1 b2
  let β : Nat → ℤ := fun k => ((levelQ l i * msg.getD k 0 / t : Nat) : ℤ)
  let f0 : Rg N := ofCoeffs N fun k => β k + if k = j then ((E : ℤ) + q4 + 4 - (2 * q4 + 8) * θ) else 0
  obtain ⟨p0, hp0⟩ := c33_exists_poly h hi f0
  obtain ⟨p1, hp1⟩ := c33_exists_poly h hi (((2 * q4 + 8 : ℤ)) : Rg N)
  have hct : IsCt P i [f0, ((2 * q4 + 8 : ℤ) : Rg N)] ⟨P, [p0, p1], i⟩ := ⟨rfl, rfl, .cons hp0 (.cons hp1 .nil)⟩
  refine ⟨⟨P, [p0, p1], i⟩, fun pr sk hk hb => ?_⟩
  obtain ⟨pt, h1, h2, h3⟩ := c65_threshold h hk pr (by simp) hct h2t (m := msgRing N msg)
    (v := ((t : ℤ) : Rg N) * phase (keyRing N sk) [f0, ((2 * q4 + 8 : ℤ) : Rg N)] - ((levelQ l i : ℤ) : Rg N) * msgRing N msg) (w := 0) (by ring)
  refine ⟨pt, h1, ?_⟩
  have hmc : ∀ k, k < N → cf (msgRing N msg) k % (t : ℤ) = (msg.getD k 0 : ℤ) := by
    intro k hk
    rw [msgRing, cf_ofCoeffs hN _ hk]
    refine Int.emod_eq_of_lt (by positivity) ?_
    rw [List.getD_eq_getElem _ _ (by rw [hm.1]; exact hk)]
    exact_mod_cast hm.2 _ (List.getElem_mem _)
  have hv : ∀ k, k < N → cf (((t : ℤ) : Rg N) * phase (keyRing N sk) [f0, ((2 * q4 + 8 : ℤ) : Rg N)] - ((levelQ l i : ℤ) : Rg N) * msgRing N msg) k =
      -((levelQ l i * msg.getD k 0 % t : Nat) : ℤ) + t * ((if k = j then ((E : ℤ) + q4 + 4 - (2 * q4 + 8) * θ) else 0) + (2 * q4 + 8) * sk.coeffs.getD k 0) := by
    intro k hk
    have e : phase (keyRing N sk) [f0, ((2 * q4 + 8 : ℤ) : Rg N)] = f0 + ((2 * q4 + 8 : ℤ) : Rg N) * keyRing N sk := by
      simp only [phase]; ring
    rw [e, cf_sub hN, cf_int_mul hN, cf_int_mul hN, cf_add hN, cf_int_mul hN, msgRing, keyRing, cf_ofCoeffs hN _ hk, cf_ofCoeffs hN _ hk, cf_ofCoeffs hN _ hk]
    have := Nat.div_add_mod (levelQ l i * msg.getD k 0) t
    have h' : (t : ℤ) * β k + ((levelQ l i * msg.getD k 0 % t : Nat) : ℤ) = levelQ l i * msg.getD k 0 := by
      simp only [β]
      exact_mod_cast this
    linear_combination h'
  have num : ∀ k x, |x| ≤ 2 * (B : ℤ) + 1 → _ := fun k x hx => numbers (Q := levelQ l i) (t := t) (B := B) (q4 := q4) (E := E)
    (r := ((levelQ l i * msg.getD k 0 % t : Nat) : ℤ)) (x := x) (y := sk.coeffs.getD k 0) (by exact_mod_cast ht) (by exact_mod_cast hB)
    (by exact_mod_cast hB2) (by exact_mod_cast hQ) (by have : q4 * (2 ^ 32 * t) = 2 ^ 32 * (t * q4) := by ring
                                                       rw [this] at a1; exact_mod_cast a1)
    (by have : q4 * (2 ^ 32 * t) = 2 ^ 32 * (t * q4) := by ring
        rw [this] at a2; exact_mod_cast a2) (by positivity)
    (by have : E * (2 * t) = 2 * (t * E) := by ring
        rw [this] at b1; exact_mod_cast b1)
    (by have : E * (2 * t) = 2 * (t * E) := by ring
        rw [this] at b2; exact_mod_cast b2) (by positivity) (by exact_mod_cast Nat.mod_lt _ (by omega)) (abs_le.mp hx).1 (abs_le.mp hx).2
    (abs_le.mp (hb k)).1 (abs_le.mp (hb k)).2
  have hj' : |sk.coeffs.getD j 0 - θ| ≤ 2 * (B : ℤ) + 1 := by
    have := abs_le.mp (hb j)
    rw [abs_le]
    constructor <;> linarith
  have hvj : cf (((t : ℤ) : Rg N) * phase (keyRing N sk) [f0, ((2 * q4 + 8 : ℤ) : Rg N)] - ((levelQ l i : ℤ) : Rg N) * msgRing N msg) j =
      -((levelQ l i * msg.getD j 0 % t : Nat) : ℤ) + t * ((E : ℤ) + q4 + 4 + (2 * q4 + 8) * (sk.coeffs.getD j 0 - θ)) := by
    rw [hv j hj, if_pos rfl]; ring
  obtain ⟨n1, n2, -⟩ := num j _ hj'
  constructor
  · intro he
    by_contra hc
    obtain ⟨g1, g2⟩ := n2 (by linarith)
    rw [← hvj] at g1 g2
    refine (h3 j hj).2 g1 g2 ?_
    rw [hmc j hj, he]
  · intro hlt
    refine List.ext_getElem (by rw [h2, hm.1]) fun k k1 k2 => ?_
    have hk' : k < N := by omega
    have e : (pt.values.getD k 0 : ℤ) = msg.getD k 0 := by
      rw [← hmc k hk']
      refine (h3 k hk').1 ?_
      by_cases hkj : k = j
      · subst hkj
        rw [hvj]
        exact n1 (by linarith)
      · rw [hv k hk', if_neg hkj, zero_add]
        exact (num k 0 (by rw [abs_zero]; positivity)).2.2
    rw [List.getD_eq_getElem _ _ k1, List.getD_eq_getElem _ _ k2] at e
    exact_mod_cast e

section
variable {α : Type} {pr : Profile} {sk : SecretKey} {ask : Nat → ℤ → BfvCipherText}

/-- Bisection of one coefficient. -/
theorem one {j : Nat} {s : ℤ} (hask : ∀ θ, -(B : ℤ) ≤ θ → θ ≤ B + 1 → ∃ pt, sk.decrypt pr (ask j θ) = .ok pt ∧ (pt.values = msg ↔ s < θ))
    (hs : s ≤ B) {k : ℤ → Offers α} {a : α} {n : Nat} (hk : Accepts pr msg sk (k s) a n) :
    ∀ r L lo, L ≤ 2 ^ r → -(B : ℤ) ≤ lo → lo ≤ s → s < lo + (L : Nat) → lo + (L : Nat) ≤ B + 1 →
      Accepts pr msg sk (bisect (ask j) k r L lo) a (n + r)
  | 0, L, lo, hr, _, h1, h2, _ => by
      have : lo = s := by
        have : (L : ℤ) ≤ 1 := by exact_mod_cast hr
        omega
      rw [this]
      exact hk
  | r + 1, L, lo, hr, h0, h1, h2, h3 => by
      obtain ⟨pt, g1, g2⟩ := hask (lo + (L / 2 : Nat)) (by omega) (by omega)
      rw [pow_succ] at hr
      have e : ((L - L / 2 : Nat) : ℤ) = L - (L / 2 : Nat) := by omega
      by_cases hlt : s < lo + (L / 2 : Nat)
      · exact .yes g1 (g2.mpr hlt) (one hask hs hk r (L - L / 2) lo (by omega) h0 h1 (by omega) (by omega))
      · exact .no g1 (fun h => hlt (g2.mp h)) (one hask hs hk r (L - L / 2) (lo + (L / 2 : Nat)) (by omega) (by omega) (by omega) (by omega) (by omega))

theorem many (hb : ∀ k, |sk.coeffs.getD k 0| ≤ B)
    (hask : ∀ j, j < N → ∀ θ, -(B : ℤ) ≤ θ → θ ≤ B + 1 → ∃ pt, sk.decrypt pr (ask j θ) = .ok pt ∧ (pt.values = msg ↔ sk.coeffs.getD j 0 < θ)) :
    ∀ (js : List Nat) (known : List ℤ), (∀ j ∈ js, j < N) →
      Accepts pr msg sk (bisectAll ask B js known) (known ++ js.map fun j => sk.coeffs.getD j 0) (js.length * Nat.clog 2 (2 * B + 1))
  | [], known, _ => by
      simp only [List.map_nil, List.append_nil, List.length_nil, Nat.zero_mul]
      exact .ret _
  | j :: js, known, h => by
      have ih := many hb hask js (known ++ [sk.coeffs.getD j 0]) fun j' hj' => h j' (List.mem_cons_of_mem _ hj')
      rw [List.append_assoc] at ih
      have hbj := abs_le.mp (hb j)
      have := one (s := sk.coeffs.getD j 0) (hask j (h j List.mem_cons_self)) hbj.2 (k := fun x => bisectAll ask B js (known ++ [x])) ih
        (Nat.clog 2 (2 * B + 1)) (2 * B + 1) (-(B : ℤ)) (Nat.le_pow_clog (by decide) _) le_rfl hbj.1 (by push_cast; linarith) (by push_cast; linarith)
      rw [List.length_cons, Nat.succ_mul]
      exact this

end

/-- The keys that a program finds out with at most `k` offers. -/
theorem count (pr : Profile) (msg : List Nat) (P : BfvParameters) :
    ∀ (prog : Offers (List ℤ)) (k : Nat) (S : Finset (List ℤ)), (∀ s ∈ S, ∃ n, n ≤ k ∧ Accepts pr msg ⟨P, s⟩ prog s n) → S.card ≤ 2 ^ k
  | .ret a, k, S, h => by
      have : S ⊆ {a} := by
        intro sk hs
        obtain ⟨n, -, hp⟩ := h sk hs
        cases hp
        simp
      calc S.card ≤ 1 := by simpa using Finset.card_le_card this
        _ ≤ _ := Nat.one_le_pow _ _ (by positivity)
  | .offer c u v, 0, S, h => by
      have : S = ∅ := by
        refine Finset.eq_empty_of_forall_notMem fun sk hs => ?_
        obtain ⟨n, hn, hp⟩ := h sk hs
        cases hp <;> omega
      rw [this]
      simp
  | .offer c u v, k + 1, S, h => by
      classical
      have h1 := count pr msg P u k (S.filter fun s => ∃ pt, SecretKey.decrypt pr ⟨P, s⟩ c = .ok pt ∧ pt.values = msg) fun s hs => by
        obtain ⟨hs', pt, hd, he⟩ := Finset.mem_filter.mp hs
        obtain ⟨n, hn, hp⟩ := h s hs'
        cases hp with
        | yes _ _ hp => exact ⟨_, by omega, hp⟩
        | no hd' hne _ => exact absurd (by rw [Except.ok.inj (hd'.symm.trans hd)]; exact he) hne
      have h2 := count pr msg P v k (S.filter fun s => ¬ ∃ pt, SecretKey.decrypt pr ⟨P, s⟩ c = .ok pt ∧ pt.values = msg) fun s hs => by
        obtain ⟨hs', hd⟩ := Finset.mem_filter.mp hs
        obtain ⟨n, hn, hp⟩ := h s hs'
        cases hp with
        | yes hd' he _ => exact absurd ⟨_, hd', he⟩ hd
        | no _ _ hp => exact ⟨_, by omega, hp⟩
      have h3 := Finset.card_filter_add_card_filter_not (s := S) fun s => ∃ pt, SecretKey.decrypt pr ⟨P, s⟩ c = .ok pt ∧ pt.values = msg
      rw [pow_succ]
      omega

end ClientReaction

/-- C119: a program that depends on the parameters, the level, the accepted message and the bound `B` only finds out the coefficients of every key with
coefficients in `[-B, B]` with `N ⌈log₂ (2B+1)⌉` ciphertexts, seeing only which of them are accepted. -/
theorem c119_read (h : IsParams N t l variance P) (h2t : 2 * t ≤ l.getD 0 0) {i : Nat} (hi : i < l.length) {msg : List Nat} (hm : IsVec t N msg) {B : Nat}
    (hB : 1 ≤ B) (hB2 : B ≤ 2 ^ 20) (hQ : 64 * B * t ≤ levelQ l i) :
    ∃ prog : Offers (List ℤ), ∀ (pr : Profile) (sk : SecretKey), IsKey P sk → sk.coeffs.length = N → (∀ x ∈ sk.coeffs, |x| ≤ B) →
      Accepts pr msg sk prog sk.coeffs (N * Nat.clog 2 (2 * B + 1)) := by
  classical
  have hex : ∀ j θ, ∃ ct : BfvCipherText, j < N → -(B : ℤ) ≤ θ → θ ≤ B + 1 → ∀ (pr : Profile) (sk : SecretKey), IsKey P sk →
      (∀ k, |sk.coeffs.getD k 0| ≤ B) → ∃ pt, sk.decrypt pr ct = .ok pt ∧ (pt.values = msg ↔ sk.coeffs.getD j 0 < θ) := by
    intro j θ
    by_cases hc : j < N ∧ -(B : ℤ) ≤ θ ∧ θ ≤ B + 1
    · obtain ⟨ct, hct⟩ := ClientReaction.exists_ask h h2t hi hm hB hB2 hQ hc.1 θ hc.2.1 hc.2.2
      exact ⟨ct, fun _ _ _ => hct⟩
    · exact ⟨⟨P, [], 0⟩, fun h1 h2 h3 => absurd ⟨h1, h2, h3⟩ hc⟩
  choose ask hask using hex
  refine ⟨bisectAll ask B (List.range N) [], fun pr sk hk hlen hb => ?_⟩
  have hb' : ∀ k, |sk.coeffs.getD k 0| ≤ B := by
    intro k
    rw [List.getD_eq_getElem?_getD]
    rcases hx : sk.coeffs[k]? with _ | x
    · simp
    · exact hb x (List.mem_of_getElem? hx)
  have := ClientReaction.many (N := N) (pr := pr) (msg := msg) hb' (fun j hj θ h1 h2 => hask j θ hj h1 h2 pr sk hk hb') (List.range N) [] fun j hj => List.mem_range.mp hj
  rw [List.length_range, List.nil_append] at this
  have e : ((List.range N).map fun j => sk.coeffs.getD j 0) = sk.coeffs := by
    refine List.ext_getElem (by simp [hlen]) fun k h1 h2 => ?_
    rw [List.getElem_map, List.getElem_range, List.getD_eq_getElem _ _ h2]
  rw [e] at this
  exact this

/-- C119: the keys that `SecretKey::generate` makes. -/
theorem c119_generated (h : IsParams N t l variance P) (h2t : 2 * t ≤ l.getD 0 0) (hv1 : 1 ≤ variance) (hv2 : variance ≤ 16) {i : Nat} (hi : i < l.length)
    {msg : List Nat} (hm : IsVec t N msg) (hQ : 128 * variance * t ≤ levelQ l i) :
    ∃ prog : Offers (List ℤ), ∀ (pr pr' : Profile) (rng : Nat → Nat), (∀ i, rng i < 2 ^ 64) → ∃ sk, SecretKey.generate pr P rng = .ok sk ∧
      Accepts pr' msg sk prog sk.coeffs (N * Nat.clog 2 (4 * variance + 1)) := by
  obtain ⟨prog, hp⟩ := c119_read h h2t hi hm (B := 2 * variance) (by omega) (by omega) (by rw [show 64 * (2 * variance) * t = 128 * variance * t by ring]; exact hQ)
  refine ⟨prog, fun pr pr' rng hr => ?_⟩
  obtain ⟨sk, h1, h2, -⟩ := c30_generate h pr hv1 hv2 hr
  have hc : sk.coeffs = (List.range N).map (cbdValue rng variance) := by
    obtain ⟨K, ext, rfl, hw, rfl, rfl, rfl⟩ := BfvP.params h
    unfold SecretKey.generate at h1
    rw [sampleVecCbd_ok pr hr hv1 hv2, res_ok_bind] at h1
    rw [← Except.ok.inj h1, hw.deg]
  refine ⟨sk, h1, ?_⟩
  have := hp pr' sk h2 (by rw [hc]; simp) (fun x hx => by
    rw [hc, List.mem_map] at hx
    obtain ⟨k, -, rfl⟩ := hx
    have := abs_le.mpr (cbdValue_bound rng variance k)
    push_cast
    exact this)
  rwa [show 2 * (2 * variance) + 1 = 4 * variance + 1 by ring] at this

/-- C119: no program finds out all keys with coefficients in `[-B, B]` with less than `N log₂ (2B+1)` ciphertexts, whatever they are. -/
theorem c119_optimal (P : BfvParameters) (N B : Nat) (pr : Profile) {msg : List Nat} {prog : Offers (List ℤ)} {k : Nat}
    (hP : ∀ s : List ℤ, s.length = N → (∀ x ∈ s, |x| ≤ B) → ∃ n, n ≤ k ∧ Accepts pr msg ⟨P, s⟩ prog s n) :
    (2 * B + 1) ^ N ≤ 2 ^ k := by
  classical
  let g : (Fin N → Fin (2 * B + 1)) → List ℤ := fun f => List.ofFn fun k => ((f k : Nat) : ℤ) - B
  have hinj : Function.Injective g := by
    intro f f' hf
    have := List.ofFn_injective hf
    funext k
    have := congrFun this k
    exact Fin.ext (by simpa using this)
  have h := ClientReaction.count pr msg P prog k (Finset.univ.image g) fun s hs => by
    obtain ⟨f, -, rfl⟩ := Finset.mem_image.mp hs
    refine hP _ (by simp [g]) fun x hx => ?_
    obtain ⟨k, rfl⟩ := List.mem_ofFn.mp hx
    have := (f k).isLt
    rw [abs_le]
    constructor <;> omega
  rw [Finset.card_image_of_injective _ hinj, Finset.card_univ, Fintype.card_fun, Fintype.card_fin, Fintype.card_fin] at h
  exact h

/-- With the example parameters 48 ciphertexts are needed to read a generated key and no program needs less than 43. -/
example : ∃ P, IsParams 8 17 Ex.mods 10 P ∧ (∃ prog : Offers (List ℤ), ∃ sk, SecretKey.generate .release P (fun i => i % 1000) = .ok sk ∧
      Accepts .debug [3, 1, 16, 0, 2, 0, 0, 9] sk prog sk.coeffs 48) ∧
    ∀ (prog : Offers (List ℤ)) (k : Nat), (∀ s : List ℤ, s.length = 8 → (∀ x ∈ s, |x| ≤ (20 : Nat)) → ∃ n, n ≤ k ∧
      Accepts .debug [3, 1, 16, 0, 2, 0, 0, 9] ⟨P, s⟩ prog s n) → 43 ≤ k := by
  obtain ⟨P, h⟩ := Ex.exists_params
  refine ⟨P, h, ?_, fun prog k hk => ?_⟩
  · obtain ⟨prog, hp⟩ := c119_generated h (by decide) (by norm_num) (by norm_num) (i := 0) (by decide) (msg := [3, 1, 16, 0, 2, 0, 0, 9])
      ⟨rfl, by decide⟩ (by rw [Ex.levelQ_mods0]; norm_num)
    obtain ⟨sk, h1, h2⟩ := hp .release .debug _ Ex.wordTape
    refine ⟨prog, sk, h1, ?_⟩
    rwa [show 8 * Nat.clog 2 (4 * 10 + 1) = 48 by rw [show (4 * 10 + 1 : Nat) = 41 from rfl, Oracle.clog_eq (y := 5) (by norm_num) (by norm_num)]] at h2
  · have h1 := c119_optimal P 8 20 .debug hk
    by_contra hlt
    have h2 : 2 ^ k ≤ 2 ^ 42 := Nat.pow_le_pow_right (by decide) (by omega)
    norm_num at h1 h2
    omega

end OnionPIR
