import Verif.Spec.Refresh
import Verif.Props.Committing
/-
Property C141 (src/bfv.rs): what is left of a ciphertext when a fresh encryption is added to it.
-/
namespace OnionPIR
open Rg Poly Spec

variable {N t : Nat} {l : List Nat} {variance : Nat} {P : BfvParameters}

namespace Refresh

/-- The refreshed ciphertext for a mask. -/
theorem components (h : IsParams N t l variance P) {sk : SecretKey} (hk : IsKey P sk) (pr : Profile) (hv1 : 1 ≤ variance) (hv2 : variance ≤ 16)
    {p : Plaintext} (hp : p.params = P ∧ p.level = 0 ∧ p.values.length ≤ N ∧ ∀ x ∈ p.values, x < 2 ^ 64) {rng : Nat → Nat} (hr : ∀ i, rng i < 2 ^ 64) :
    ∃ E : Rg N, ∀ (r : Rows N l 0) (a : Rg N), IsMask P 0 r.tape a → ∀ (f0 f1 : Rg N) (x : BfvCipherText), IsCt P 0 [f0, f1] x →
      ∃ z, refresh pr sk p x r.tape rng = .ok z ∧ IsCt P 0 [f0 + (E - a * keyRing N sk), f1 + a] z := by
  have hl0 : 0 < l.length := by
    obtain ⟨K, ext, rfl, hw, rfl, rfl, rfl⟩ := BfvP.params h
    exact List.length_pos_iff.mpr hw.ne
  obtain ⟨M, -, hM⟩ := c77_encrypt h hk pr hv1 hv2 hp.1 hp.2.1 hp.2.2.1 hp.2.2.2
  obtain ⟨r1, w1, -⟩ := c77_mask_uniform h hl0 (0 : Rg N)
  obtain ⟨e, -, he, -, -⟩ := hM r1.tape rng hr 0 w1
  refine ⟨smallRing N e + M, fun r a ha f0 f1 x hx => ?_⟩
  obtain ⟨e', y, he', y1, y2⟩ := hM r.tape rng hr a ha
  obtain rfl := Except.ok.inj (he.symm.trans he')
  obtain ⟨z, z1, z2, -⟩ := c32_add h pr hx y2 (keyRing N sk)
  refine ⟨z, ?_, ?_⟩
  · unfold refresh
    rw [y1, res_ok_bind, z1]
  · rw [show smallRing N e + M - a * keyRing N sk = smallRing N e - a * keyRing N sk + M by ring]
    exact z2

end Refresh

/-- C141: for every ciphertext and every error, the second component of the refreshed ciphertext takes every value for exactly one mask. -/
theorem c141_uniform (h : IsParams N t l variance P) {sk : SecretKey} (hk : IsKey P sk) (pr : Profile) (hv1 : 1 ≤ variance) (hv2 : variance ≤ 16)
    {p : Plaintext} (hp : p.params = P ∧ p.level = 0 ∧ p.values.length ≤ N ∧ ∀ x ∈ p.values, x < 2 ^ 64) {rng : Nat → Nat} (hr : ∀ i, rng i < 2 ^ 64)
    {f0 f1 : Rg N} {x : BfvCipherText} (hx : IsCt P 0 [f0, f1] x) (g : Rg N) :
    ∃! r : Rows N l 0, ∃ z g0, refresh pr sk p x r.tape rng = .ok z ∧ IsCt P 0 [g0, g] z := by
  have hq : ∀ q ∈ l, 0 < q := fun q hq => by have := h.2.2.1 q hq; omega
  have hl0 : 0 < l.length := by
    obtain ⟨K, ext, rfl, hw, rfl, rfl, rfl⟩ := BfvP.params h
    exact List.length_pos_iff.mpr hw.ne
  obtain ⟨E, hE⟩ := Refresh.components h hk pr hv1 hv2 hp hr
  obtain ⟨r, w, hu⟩ := c77_mask_uniform h hl0 (g - f1)
  refine ⟨r, ?_, ?_⟩
  · obtain ⟨z, z1, z2⟩ := hE r _ w f0 f1 x hx
    rw [add_sub_cancel] at z2
    exact ⟨z, _, z1, z2⟩
  · rintro r' ⟨z, g0, z1, z2⟩
    obtain ⟨a, ha⟩ := (c77_mask h hl0 (Rows.tapeAt hq r')).1
    obtain ⟨z', z1', z2'⟩ := hE r' a ha f0 f1 x hx
    obtain rfl := Except.ok.inj (z1.symm.trans z1')
    obtain ⟨v, hv⟩ := ((Committing.pair h hl0 z2 z2').mp rfl).2
    exact hu r' (((c77_mask h hl0 (Rows.tapeAt hq r')).2 _ _ ha).mpr ⟨-v, by linear_combination -hv⟩)

/-- C141: nothing but the phase is left of the ciphertext. Two ciphertexts of equal phase give word for word the same refreshed ciphertexts, for every error: to every
mask for the one there is exactly one mask for the other. -/
theorem c141_same (h : IsParams N t l variance P) {sk : SecretKey} (hk : IsKey P sk) (pr : Profile) (hv1 : 1 ≤ variance) (hv2 : variance ≤ 16)
    {p : Plaintext} (hp : p.params = P ∧ p.level = 0 ∧ p.values.length ≤ N ∧ ∀ x ∈ p.values, x < 2 ^ 64) {rng : Nat → Nat} (hr : ∀ i, rng i < 2 ^ 64)
    {f0 f1 g0 g1 : Rg N} {x y : BfvCipherText} (hx : IsCt P 0 [f0, f1] x) (hy : IsCt P 0 [g0, g1] y)
    (hph : Cong (levelQ l 0) (phase (keyRing N sk) [f0, f1]) (phase (keyRing N sk) [g0, g1])) (r : Rows N l 0) :
    ∃! r' : Rows N l 0, ∃ z, refresh pr sk p x r.tape rng = .ok z ∧ refresh pr sk p y r'.tape rng = .ok z := by
  have hq : ∀ q ∈ l, 0 < q := fun q hq => by have := h.2.2.1 q hq; omega
  have hl0 : 0 < l.length := by
    obtain ⟨K, ext, rfl, hw, rfl, rfl, rfl⟩ := BfvP.params h
    exact List.length_pos_iff.mpr hw.ne
  obtain ⟨E, hE⟩ := Refresh.components h hk pr hv1 hv2 hp hr
  obtain ⟨a, ha⟩ := (c77_mask h hl0 (Rows.tapeAt hq r)).1
  obtain ⟨z, z1, z2⟩ := hE r a ha f0 f1 x hx
  obtain ⟨r', w, hu⟩ := c77_mask_uniform h hl0 (f1 + a - g1)
  rw [BfvP.phase_two, BfvP.phase_two] at hph
  obtain ⟨v, hv⟩ := hph
  refine ⟨r', ⟨z, z1, ?_⟩, ?_⟩
  · obtain ⟨z', z1', z2'⟩ := hE r' _ w g0 g1 y hy
    rw [z1', (Committing.pair h hl0 z2 z2').mpr ⟨⟨v, by linear_combination hv⟩, 0, by ring⟩]
  · rintro r'' ⟨u, u1, u2⟩
    obtain rfl := Except.ok.inj (z1.symm.trans u1)
    obtain ⟨b, hb⟩ := (c77_mask h hl0 (Rows.tapeAt hq r'')).1
    obtain ⟨z', z1', z2'⟩ := hE r'' b hb g0 g1 y hy
    obtain rfl := Except.ok.inj (u2.symm.trans z1')
    obtain ⟨w', hw'⟩ := ((Committing.pair h hl0 z2 z2').mp rfl).2
    exact hu r'' (((c77_mask h hl0 (Rows.tapeAt hq r'')).2 _ _ hb).mpr ⟨-w', by linear_combination -hw'⟩)

/-- C141: and the phase is left: with the same error, ciphertexts whose phases differ never give the same refreshed ciphertext, whatever the masks. -/
theorem c141_only (h : IsParams N t l variance P) {sk : SecretKey} (hk : IsKey P sk) (pr : Profile) (hv1 : 1 ≤ variance) (hv2 : variance ≤ 16)
    {p : Plaintext} (hp : p.params = P ∧ p.level = 0 ∧ p.values.length ≤ N ∧ ∀ x ∈ p.values, x < 2 ^ 64) {rng : Nat → Nat} (hr : ∀ i, rng i < 2 ^ 64)
    {f0 f1 g0 g1 : Rg N} {x y : BfvCipherText} (hx : IsCt P 0 [f0, f1] x) (hy : IsCt P 0 [g0, g1] y) {r r' : Rows N l 0} {z : BfvCipherText}
    (h1 : refresh pr sk p x r.tape rng = .ok z) (h2 : refresh pr sk p y r'.tape rng = .ok z) :
    Cong (levelQ l 0) (phase (keyRing N sk) [f0, f1]) (phase (keyRing N sk) [g0, g1]) := by
  have hq : ∀ q ∈ l, 0 < q := fun q hq => by have := h.2.2.1 q hq; omega
  have hl0 : 0 < l.length := by
    obtain ⟨K, ext, rfl, hw, rfl, rfl, rfl⟩ := BfvP.params h
    exact List.length_pos_iff.mpr hw.ne
  obtain ⟨E, hE⟩ := Refresh.components h hk pr hv1 hv2 hp hr
  obtain ⟨a, ha⟩ := (c77_mask h hl0 (Rows.tapeAt hq r)).1
  obtain ⟨b, hb⟩ := (c77_mask h hl0 (Rows.tapeAt hq r')).1
  obtain ⟨u, u1, u2⟩ := hE r a ha f0 f1 x hx
  obtain ⟨w, w1, w2⟩ := hE r' b hb g0 g1 y hy
  obtain rfl := Except.ok.inj (u1.symm.trans h1)
  obtain rfl := Except.ok.inj (w1.symm.trans h2)
  obtain ⟨⟨v, hv⟩, v', hv'⟩ := (Committing.pair h hl0 u2 w2).mp rfl
  rw [BfvP.phase_two, BfvP.phase_two]
  exact ⟨v + v' * keyRing N sk, by linear_combination hv + keyRing N sk * hv'⟩

/-- C141: the refreshed ciphertext decrypts to the sum of the messages, while the noise leaves room for that of a fresh encryption. -/
theorem c141_decrypt (h : IsParams N t l variance P) {sk : SecretKey} (hk : IsKey P sk) (pr : Profile) (hv1 : 1 ≤ variance) (hv2 : variance ≤ 16)
    {p : Plaintext} (hp : p.params = P ∧ p.level = 0 ∧ p.values.length ≤ N ∧ ∀ x ∈ p.values, x < 2 ^ 64) {aTape : Nat → Nat → Nat} (ha : TapeAt l 0 aTape)
    {rng : Nat → Nat} (hr : ∀ i, rng i < 2 ^ 64) {f0 f1 m : Rg N} {x : BfvCipherText} (hx : IsCt P 0 [f0, f1] x) (h2t : 2 * t ≤ l.getD 0 0) {V : ℤ}
    (he : Encodes t (levelQ l 0) m (phase (keyRing N sk) [f0, f1]) V) (hV : 4 * (V + (2 * t * variance + 2 * t)) ≤ levelQ l 0) :
    ∃ z d, refresh pr sk p x aTape rng = .ok z ∧ sk.decrypt pr z = .ok d ∧ d.values = residues t (m + msgRing N p.values) := by
  obtain ⟨y, g0, g1, y1, y2, y3⟩ := c30_encrypt h hk pr hv1 hv2 hp.1 hp.2.1 hp.2.2.1 hp.2.2.2 ha hr
  obtain ⟨z, -, d, -, z1, -, d1, -, d2, -⟩ := c32_decrypts h hk pr hx y2 h2t he y3 hV
  refine ⟨z, d, ?_, d1, d2⟩
  unfold refresh
  rw [y1, res_ok_bind, z1]

/-- Two ciphertexts of one phase with different masks: refreshed with zeros, both give the same ciphertext, and it decrypts to the message. -/
example : ∃ (P : BfvParameters) (sk : SecretKey) (x y z : BfvCipherText) (r r' : Rows 8 Ex.mods 0) (d : Plaintext), IsParams 8 17 Ex.mods 10 P ∧
    IsKey P sk ∧ x ≠ y ∧ refresh .debug sk ⟨P, 0, .poly, [0]⟩ x r.tape (fun i => i % 1000) = .ok z ∧
    refresh .debug sk ⟨P, 0, .poly, [0]⟩ y r'.tape (fun i => i % 1000) = .ok z ∧
    sk.decrypt .debug z = .ok d ∧ d.values = residues 17 (msgRing 8 [3, 1, 16, 0, 2, 0, 0, 9] + msgRing 8 [0]) := by
  obtain ⟨P, sk, x, f0, f1, h, hk, -, hx, he⟩ := Ex.setup
  have hl0 : 0 < Ex.mods.length := by decide
  obtain ⟨p0, hp0⟩ := c33_exists_poly h hl0 (f0 - keyRing 8 sk)
  obtain ⟨p1, hp1⟩ := c33_exists_poly h hl0 (f1 + 1)
  have hy : IsCt P 0 [f0 - keyRing 8 sk, f1 + 1] ⟨P, [p0, p1], 0⟩ := ⟨rfl, rfl, .cons hp0 (.cons hp1 .nil)⟩
  have hp : (⟨P, 0, .poly, [0]⟩ : Plaintext).params = P ∧ (⟨P, 0, .poly, [0]⟩ : Plaintext).level = 0 ∧
      (⟨P, 0, .poly, [0]⟩ : Plaintext).values.length ≤ 8 ∧ ∀ x ∈ (⟨P, 0, .poly, [0]⟩ : Plaintext).values, x < 2 ^ 64 := ⟨rfl, rfl, by simp, by simp⟩
  obtain ⟨r, -, -⟩ := c77_mask_uniform h hl0 (1 : Rg 8)
  obtain ⟨r', ⟨z, z1, z2⟩, -⟩ := c141_same h hk .debug (by norm_num) (by norm_num) hp Ex.wordTape hx hy
    (by rw [BfvP.phase_two, BfvP.phase_two]; exact ⟨0, by ring⟩) r
  obtain ⟨z', d, d1, d2, d3⟩ := c141_decrypt h hk .debug (by norm_num) (by norm_num) hp
    (Rows.tapeAt (fun q hq => by have := Ex.mods_gt q hq; omega) r) Ex.wordTape hx (by decide) he (by rw [Ex.levelQ_mods0]; norm_num)
  obtain rfl := Except.ok.inj (z1.symm.trans d1)
  refine ⟨P, sk, x, _, z, r, r', d, h, hk, fun hxy => ?_, z1, z2, d2, d3⟩
  refine Ex.not_cong_of_cf (k := 0) (by norm_num) ?_ ((Committing.pair h hl0 hx hy).mp hxy).2
  have h1 : cf (1 : Rg 8) 0 = 1 := by have := cf_int (N := 8) (by norm_num) 1 0; simpa using this
  rw [cf_add (by norm_num), h1, Ex.levelQ_mods0, sub_add_cancel_left]
  norm_num

end OnionPIR
