import Verif.Props.WrongKey
import Verif.Props.Attack
import Verif.Props.Server
/-
C136 (src/bfv.rs): what a ciphertext fixes: the mask and, for one key, the message; but not the message for all keys.
-/
namespace OnionPIR
open Rg Poly Spec

variable {N t : Nat} {l : List Nat} {variance : Nat} {P : BfvParameters}

namespace Committing

/-- Two pairs of components are those of one ciphertext iff they are congruent. -/
theorem pair (h : IsParams N t l variance P) {i : Nat} (hi : i < l.length) {f0 f1 g0 g1 : Rg N} {x y : BfvCipherText} (hx : IsCt P i [f0, f1] x) (hy : IsCt P i [g0, g1] y) :
    x = y ↔ Cong (levelQ l i) f0 g0 ∧ Cong (levelQ l i) f1 g1 := by
  obtain ⟨K, ext, rfl, hw, rfl, rfl, rfl⟩ := BfvP.params h
  obtain ⟨L, hL⟩ := hw.levels i hi
  have hc := hL.wf.ctx
  obtain ⟨a1, a2, a3⟩ := (BfvP.isCt_iff hL _ _).mp hx
  obtain ⟨b1, b2, b3⟩ := (BfvP.isCt_iff hL _ _).mp hy
  obtain ⟨xp, xc, xl⟩ := x
  obtain ⟨yp, yc, yl⟩ := y
  simp only at a1 a2 a3 b1 b2 b3
  subst a1 a2 a3 b1 b2 b3
  rw [← BfvP.levelQ_eq hL]
  simp only [BfvCipherText.mk.injEq, List.map_cons, List.map_nil, List.cons.injEq, and_true, true_and, enc_eq_iff hc]
  exact Iff.rfl

/-- One mask makes the encryptions of two polynomials under two keys equal. -/
theorem poly (h : IsParams N t l variance P) {sk sk' : SecretKey} (hk : IsKey P sk) (hk' : IsKey P sk') (pr pr' : Profile) (hv1 : 1 ≤ variance) (hv2 : variance ≤ 16)
    {u : Rg N} (hu : Cong (levelQ l 0) (u * (keyRing N sk' - keyRing N sk)) 1) {M M' : Rg N} {p p' : Poly} (hp : PolyAt P 0 M p) (hp' : PolyAt P 0 M' p')
    {rng rng' : Nat → Nat} (hr : ∀ i, rng i < 2 ^ 64) (hr' : ∀ i, rng' i < 2 ^ 64) :
    ∃ r : Rows N l 0, ∃ ct, sk.encryptPoly pr p r.tape rng = .ok ct ∧ sk'.encryptPoly pr' p' r.tape rng' = .ok ct := by
  have h' := h
  obtain ⟨K, ext, rfl, hw, rfl, rfl, rfl⟩ := BfvP.params h
  have hl0 : 0 < P.ciphertextModuli.length := List.length_pos_iff.mpr hw.ne
  obtain ⟨L, hL⟩ := hw.levels 0 hl0
  have hsk := BfvP.key hw hk
  have hsk' := BfvP.key hw hk'
  obtain ⟨z, hz⟩ := hu
  obtain rfl := (BfvP.polyAt_iff hL _ _).mp hp
  obtain rfl := (BfvP.polyAt_iff hL _ _).mp hp'
  set e := ofList K ((List.range (2 ^ K)).map (cbdValue rng P.variance)) with he
  set e' := ofList K ((List.range (2 ^ K)).map (cbdValue rng' P.variance)) with he'
  obtain ⟨r, w, -⟩ := c77_mask_uniform h' hl0 (u * (e' + M' - e - M))
  have hm := (Rlwe.mask_iff hL _ _).mp w
  have x1 := SecretKey.encryptPoly_exact hsk pr hL.wf.ctx (by rw [hk.1]; exact hv1) (by rw [hk.1]; exact hv2) M hm hr
  have y1 := SecretKey.encryptPoly_exact hsk' pr' hL.wf.ctx (by rw [hk'.1]; exact hv1) (by rw [hk'.1]; exact hv2) M' hm hr'
  refine ⟨r, _, x1, y1.trans ?_⟩
  rw [hk.1, hk'.1, ← he, ← he']
  congr 3
  refine (enc_eq_iff hL.wf.ctx _ _).mpr ?_
  rw [BfvP.levelQ_eq hL]
  rw [BfvP.keyRing_eq, BfvP.keyRing_eq] at hz
  exact ⟨-(z * (e' + M' - e - M)), by linear_combination -(e' + M' - e - M) * hz⟩

end Committing

/-- C136: the ciphertext fixes the words of the mask, whatever the keys, the messages and the errors. -/
theorem c136_mask (h : IsParams N t l variance P) {sk sk' : SecretKey} (hk : IsKey P sk) (hk' : IsKey P sk') (pr pr' : Profile) (hv1 : 1 ≤ variance) (hv2 : variance ≤ 16)
    {p p' : Plaintext} (hp : p.params = P ∧ p.level = 0 ∧ p.values.length ≤ N ∧ ∀ x ∈ p.values, x < 2 ^ 64)
    (hp' : p'.params = P ∧ p'.level = 0 ∧ p'.values.length ≤ N ∧ ∀ x ∈ p'.values, x < 2 ^ 64)
    {rng rng' : Nat → Nat} (hr : ∀ i, rng i < 2 ^ 64) (hr' : ∀ i, rng' i < 2 ^ 64) {r r' : Rows N l 0} {ct : BfvCipherText}
    (h1 : sk.encrypt pr p r.tape rng = .ok ct) (h2 : sk'.encrypt pr' p' r'.tape rng' = .ok ct) : r = r' := by
  have hq : ∀ q ∈ l, 0 < q := fun q hq => by have := h.2.2.1 q hq; omega
  have hl0 : 0 < l.length := by
    obtain ⟨K, ext, rfl, hw, rfl, rfl, rfl⟩ := BfvP.params h
    exact List.length_pos_iff.mpr hw.ne
  obtain ⟨M, -, hM⟩ := c77_encrypt h hk pr hv1 hv2 hp.1 hp.2.1 hp.2.2.1 hp.2.2.2
  obtain ⟨M', -, hM'⟩ := c77_encrypt h hk' pr' hv1 hv2 hp'.1 hp'.2.1 hp'.2.2.1 hp'.2.2.2
  obtain ⟨a, ha⟩ := (c77_mask h hl0 (Rows.tapeAt hq r)).1
  obtain ⟨a', ha'⟩ := (c77_mask h hl0 (Rows.tapeAt hq r')).1
  obtain ⟨e, x, -, x1, x2⟩ := hM r.tape rng hr a ha
  obtain ⟨e', y, -, y1, y2⟩ := hM' r'.tape rng' hr' a' ha'
  obtain rfl := Except.ok.inj (x1.symm.trans h1)
  obtain rfl := Except.ok.inj (y1.symm.trans h2)
  have haa := ((Committing.pair h hl0 x2 y2).mp rfl).2
  obtain ⟨r0, -, g2⟩ := c77_mask_uniform h hl0 a'
  exact (g2 r (((c77_mask h hl0 (Rows.tapeAt hq r)).2 _ _ ha).mpr haa)).trans (g2 r' ha').symm

/-- C136: for one key the ciphertext fixes the message. -/
theorem c136_one_key (h : IsParams N t l variance P) {sk : SecretKey} (hk : IsKey P sk) (pr pr' : Profile) (hv1 : 1 ≤ variance) (hv2 : variance ≤ 16)
    (h2t : 2 * t ≤ l.getD 0 0) (hQ : 8 * t * (variance + 1) ≤ levelQ l 0)
    {p p' : Plaintext} (hp : p.params = P ∧ p.level = 0 ∧ p.values.length ≤ N ∧ ∀ x ∈ p.values, x < 2 ^ 64)
    (hp' : p'.params = P ∧ p'.level = 0 ∧ p'.values.length ≤ N ∧ ∀ x ∈ p'.values, x < 2 ^ 64)
    {aTape aTape' : Nat → Nat → Nat} (ha : TapeAt l 0 aTape) (ha' : TapeAt l 0 aTape') {rng rng' : Nat → Nat} (hr : ∀ i, rng i < 2 ^ 64) (hr' : ∀ i, rng' i < 2 ^ 64)
    {ct : BfvCipherText} (h1 : sk.encrypt pr p aTape rng = .ok ct) (h2 : sk.encrypt pr' p' aTape' rng' = .ok ct) {k : Nat} (hkN : k < N) :
    p.values.getD k 0 % t = p'.values.getD k 0 % t := by
  obtain ⟨x, d, x1, x2, x3⟩ := c30_encrypt_decrypt h hk pr .debug hv1 hv2 hp.1 hp.2.1 hp.2.2.1 hp.2.2.2 ha hr h2t hQ
  obtain ⟨y, d', y1, y2, y3⟩ := c30_encrypt_decrypt h hk pr' .debug hv1 hv2 hp'.1 hp'.2.1 hp'.2.2.1 hp'.2.2.2 ha' hr' h2t hQ
  obtain rfl := Except.ok.inj (x1.symm.trans h1)
  obtain rfl := Except.ok.inj (y1.symm.trans h2)
  obtain rfl := Except.ok.inj (x2.symm.trans y2)
  have h3 := congrArg (fun v : List Nat => v.getD k 0) (x3.symm.trans y3)
  simpa [List.getD_eq_getElem?_getD, List.getElem?_map, List.getElem?_range hkN] using h3

/-- **C136, encryption is not committing**: with two keys whose difference is invertible, for all messages and all errors there is exactly one mask with which the
encryption of the one message under the one key is, word for word, the encryption of the other message under the other key. -/
theorem c136_two_keys (h : IsParams N t l variance P) {sk sk' : SecretKey} (hk : IsKey P sk) (hk' : IsKey P sk') (pr pr' : Profile) (hv1 : 1 ≤ variance) (hv2 : variance ≤ 16)
    {u : Rg N} (hu : Cong (levelQ l 0) (u * (keyRing N sk' - keyRing N sk)) 1)
    {p p' : Plaintext} (hp : p.params = P ∧ p.level = 0 ∧ p.values.length ≤ N ∧ ∀ x ∈ p.values, x < 2 ^ 64)
    (hp' : p'.params = P ∧ p'.level = 0 ∧ p'.values.length ≤ N ∧ ∀ x ∈ p'.values, x < 2 ^ 64)
    {rng rng' : Nat → Nat} (hr : ∀ i, rng i < 2 ^ 64) (hr' : ∀ i, rng' i < 2 ^ 64) :
    ∃! r : Rows N l 0, ∃ ct, sk.encrypt pr p r.tape rng = .ok ct ∧ sk'.encrypt pr' p' r.tape rng' = .ok ct := by
  have hq : ∀ q ∈ l, 0 < q := fun q hq => by have := h.2.2.1 q hq; omega
  have hl0 : 0 < l.length := by
    obtain ⟨K, ext, rfl, hw, rfl, rfl, rfl⟩ := BfvP.params h
    exact List.length_pos_iff.mpr hw.ne
  obtain ⟨M, -, hM⟩ := c77_encrypt h hk pr hv1 hv2 hp.1 hp.2.1 hp.2.2.1 hp.2.2.2
  obtain ⟨M', -, hM'⟩ := c77_encrypt h hk' pr' hv1 hv2 hp'.1 hp'.2.1 hp'.2.2.1 hp'.2.2.2
  obtain ⟨r1, w1, -⟩ := c77_mask_uniform h hl0 (0 : Rg N)
  obtain ⟨e, -, he, -, -⟩ := hM r1.tape rng hr 0 w1
  obtain ⟨e', -, he', -, -⟩ := hM' r1.tape rng' hr' 0 w1
  obtain ⟨z, hz⟩ := hu
  set A : Rg N := u * (smallRing N e' + M' - smallRing N e - M) with hA
  obtain ⟨r, w, hw⟩ := c77_mask_uniform h hl0 A
  refine ⟨r, ?_, ?_⟩
  · obtain ⟨e1, x, f1, x1, x2⟩ := hM r.tape rng hr A w
    obtain ⟨e1', y, f1', y1, y2⟩ := hM' r.tape rng' hr' A w
    obtain rfl := Except.ok.inj (he.symm.trans f1)
    obtain rfl := Except.ok.inj (he'.symm.trans f1')
    refine ⟨x, x1, ?_⟩
    rw [y1, (Committing.pair h hl0 x2 y2).mpr ⟨?_, 0, by ring⟩]
    exact ⟨z * (smallRing N e' + M' - smallRing N e - M), by rw [hA]; linear_combination (smallRing N e' + M' - smallRing N e - M) * hz⟩
  · rintro r' ⟨ct, h1, h2⟩
    refine hw r' ?_
    obtain ⟨a, ha⟩ := (c77_mask h hl0 (Rows.tapeAt hq r')).1
    obtain ⟨e1, x, f1, x1, x2⟩ := hM r'.tape rng hr a ha
    obtain ⟨e1', y, f1', y1, y2⟩ := hM' r'.tape rng' hr' a ha
    obtain rfl := Except.ok.inj (he.symm.trans f1)
    obtain rfl := Except.ok.inj (he'.symm.trans f1')
    obtain rfl := Except.ok.inj (x1.symm.trans h1)
    obtain rfl := Except.ok.inj (y1.symm.trans h2)
    obtain ⟨⟨v, hv⟩, -⟩ := (Committing.pair h hl0 x2 y2).mp rfl
    exact ((c77_mask h hl0 (Rows.tapeAt hq r')).2 _ _ ha).mpr ⟨u * v - a * z, by rw [hA]; linear_combination u * hv - a * hz⟩

/-- C136: so one ciphertext decrypts to any message under the one key and to any other message under the other key, as a fresh encryption under either. -/
theorem c136_two_messages (h : IsParams N t l variance P) {sk sk' : SecretKey} (hk : IsKey P sk) (hk' : IsKey P sk') (pr : Profile) (hv1 : 1 ≤ variance) (hv2 : variance ≤ 16)
    (h2t : 2 * t ≤ l.getD 0 0) (hQ : 8 * t * (variance + 1) ≤ levelQ l 0)
    {u : Rg N} (hu : Cong (levelQ l 0) (u * (keyRing N sk' - keyRing N sk)) 1) {m m' : List Nat} (hm : m.length = N) (hm' : m'.length = N)
    (hlt : ∀ x ∈ m, x < t) (hlt' : ∀ x ∈ m', x < t) :
    ∃ ct d d', sk.decrypt pr ct = .ok d ∧ sk'.decrypt pr ct = .ok d' ∧ d.values = m ∧ d'.values = m' := by
  have hq : ∀ q ∈ l, 0 < q := fun q hq => by have := h.2.2.1 q hq; omega
  have ht : t < 2 ^ 64 := by
    obtain ⟨K, ext, rfl, hw, rfl, rfl, rfl⟩ := BfvP.params h
    exact hw.t_lt.trans (by norm_num)
  have hp : (⟨P, 0, .poly, m⟩ : Plaintext).params = P ∧ (⟨P, 0, .poly, m⟩ : Plaintext).level = 0 ∧ m.length ≤ N ∧ ∀ x ∈ m, x < 2 ^ 64 :=
    ⟨rfl, rfl, by omega, fun x hx => (hlt x hx).trans ht⟩
  have hp' : (⟨P, 0, .poly, m'⟩ : Plaintext).params = P ∧ (⟨P, 0, .poly, m'⟩ : Plaintext).level = 0 ∧ m'.length ≤ N ∧ ∀ x ∈ m', x < 2 ^ 64 :=
    ⟨rfl, rfl, by omega, fun x hx => (hlt' x hx).trans ht⟩
  have hr : ∀ i : Nat, (fun _ : Nat => 0) i < 2 ^ 64 := fun _ => by norm_num
  obtain ⟨r, ⟨ct, h1, h2⟩, -⟩ := c136_two_keys h hk hk' pr pr hv1 hv2 hu hp hp' hr hr
  obtain ⟨x, d, x1, x2, x3⟩ := c30_encrypt_decrypt h hk pr pr hv1 hv2 hp.1 hp.2.1 hp.2.2.1 hp.2.2.2 (Rows.tapeAt hq r) hr h2t hQ
  obtain ⟨y, d', y1, y2, y3⟩ := c30_encrypt_decrypt h hk' pr pr hv1 hv2 hp'.1 hp'.2.1 hp'.2.2.1 hp'.2.2.2 (Rows.tapeAt hq r) hr h2t hQ
  obtain rfl := Except.ok.inj (x1.symm.trans h1)
  obtain rfl := Except.ok.inj (y1.symm.trans h2)
  have same : ∀ {v : List Nat}, v.length = N → (∀ x ∈ v, x < t) → ((List.range N).map fun k => v.getD k 0 % t) = v := by
    intro v hv hlt
    refine List.ext_getElem (by simp [hv]) fun k h1 h2 => ?_
    rw [List.getElem_map, List.getElem_range, List.getD_eq_getElem _ _ h2]
    exact Nat.mod_eq_of_lt (hlt _ (List.getElem_mem h2))
  exact ⟨_, d, d', x2, y2, x3.trans (same hm hlt), y3.trans (same hm' hlt')⟩

/-- C136: one query, as the test `query` builds them, asks for the one vector under the one key and for the other vector under the other key: what the server
returns then depends on whose evaluation keys it uses (`c64_protocol_partial`), and the query alone fixes no row. -/
theorem c136_query (h : IsParams N t l variance P) {sk sk' : SecretKey} (hk : IsKey P sk) (hk' : IsKey P sk') (hv1 : 1 ≤ variance) (hv2 : variance ≤ 16)
    {u : Rg N} (hu : Cong (levelQ l 0) (u * (keyRing N sk' - keyRing N sk)) 1) {v v' : List Nat} (hlen : v.length ≤ N) (hlen' : v'.length ≤ N)
    (hv : ∀ a ∈ v, a < 2 ^ 64) (hv' : ∀ a ∈ v', a < 2 ^ 64) (fd : Nat) :
    ∃ q0 qs, IsQuery N P l sk fd v q0 qs ∧ IsQuery N P l sk' fd v' q0 qs := by
  have hq : ∀ q ∈ l, 0 < q := fun q hq => by have := h.2.2.1 q hq; omega
  have hr : ∀ i : Nat, (fun _ : Nat => 0) i < 2 ^ 64 := fun _ => by norm_num
  obtain ⟨r, ⟨q0, a1, a2⟩, -⟩ := c136_two_keys h hk hk' .release .release hv1 hv2 hu (p := ⟨P, 0, .poly, v⟩) (p' := ⟨P, 0, .poly, v'⟩)
    ⟨rfl, rfl, hlen, hv⟩ ⟨rfl, rfl, hlen', hv'⟩ hr hr
  have hone : ∀ j, j < l.length → ∃ ct, ∃ g p p', ∃ r : Rows N l 0, IsGarner l 0 j g ∧ PolyAt P 0 (msgRing N (v.drop fd) * (g : Rg N)) p ∧
      PolyAt P 0 (msgRing N (v'.drop fd) * (g : Rg N)) p' ∧ sk.encryptPoly .release p r.tape (fun _ => 0) = .ok ct ∧
      sk'.encryptPoly .release p' r.tape (fun _ => 0) = .ok ct := by
    intro j hj
    obtain ⟨g, hg⟩ := c40_garner h (i := 0) (j := j) (by omega) (by simpa [levelModuli] using hj)
    obtain ⟨p, hp⟩ := c33_exists_poly h (i := 0) (by omega) (msgRing N (v.drop fd) * (g : Rg N))
    obtain ⟨p', hp'⟩ := c33_exists_poly h (i := 0) (by omega) (msgRing N (v'.drop fd) * (g : Rg N))
    obtain ⟨r, ct, h1, h2⟩ := Committing.poly h hk hk' .release .release hv1 hv2 hu hp hp' hr hr
    exact ⟨ct, g, p, p', r, hg, hp, hp', h1, h2⟩
  choose ct g p p' r' c1 c2 c3 c4 c5 using hone
  refine ⟨q0, List.ofFn fun j : Fin l.length => ct j j.isLt, ⟨⟨.release, _, _, Rows.tapeAt hq r, hr, a1⟩, by simp, fun j x hx => ?_⟩,
    ⟨⟨.release, _, _, Rows.tapeAt hq r, hr, a2⟩, by simp, fun j x hx => ?_⟩⟩ <;>
  · obtain ⟨hj, rfl⟩ := List.getElem?_eq_some_iff.mp hx
    have hj' : j < l.length := by simpa using hj
    rw [List.getElem_ofFn]
    first
    | exact ⟨.release, _, _, _, _, c1 j hj', c2 j hj', Rows.tapeAt hq _, hr, c4 j hj'⟩
    | exact ⟨.release, _, _, _, _, c1 j hj', c3 j hj', Rows.tapeAt hq _, hr, c5 j hj'⟩

/-- C136: keys are fixed by what they decrypt, even by what they decrypt one ciphertext to that depends on the parameters only. -/
theorem c136_key (h : IsParams N t l variance P) (h2t : 2 * t ≤ l.getD 0 0) {S : Nat} (hQ : 4 * (t * S) ≤ levelQ l 0) (ht : 2 * S < t) :
    ∃ ct, ∀ (pr pr' : Profile) (sk sk' : SecretKey), IsKey P sk → IsKey P sk' → Bdd (S : ℤ) (keyRing N sk) → Bdd (S : ℤ) (keyRing N sk') →
      sk.decrypt pr ct = sk'.decrypt pr' ct → keyRing N sk = keyRing N sk' := by
  obtain ⟨ct, -, hct⟩ := c101_key_recovery h h2t
  refine ⟨ct, fun pr pr' sk sk' hk hk' hS hS' he => ?_⟩
  obtain ⟨d, d1, d2⟩ := hct pr sk S hk hS hQ
  obtain ⟨d', d1', d2'⟩ := hct pr' sk' S hk' hS' hQ
  obtain rfl := Except.ok.inj (d1.symm.trans (he.trans d1'))
  have hN : 0 < N := by
    obtain ⟨K, ext, rfl, -⟩ := BfvP.params h
    positivity
  refine ext_cf hN fun k hk => ?_
  rw [c101_key_determined hS ht hk, c101_key_determined hS' ht hk, ← d2, ← d2']

/-- Two keys that differ by one in one coefficient: one ciphertext is `3, 1, 16, …` for the one and `0, 5, 0, …` for the other. -/
example : ∃ (P : BfvParameters) (sk sk' : SecretKey) (ct : BfvCipherText) (d d' : Plaintext), IsParams 8 17 Ex.mods 10 P ∧ IsKey P sk ∧ IsKey P sk' ∧
    sk.decrypt .release ct = .ok d ∧ sk'.decrypt .release ct = .ok d' ∧ d.values = [3, 1, 16, 0, 0, 0, 0, 2] ∧ d'.values = [0, 5, 0, 0, 0, 0, 0, 0] := by
  obtain ⟨P, h⟩ := Ex.exists_params
  have hd : P.degree = 8 := by
    obtain ⟨K, ext, hK, hw, -, -, -⟩ := BfvP.params h
    rw [hw.deg, hK]
  have hk : ∀ x : Int, |x| ≤ 1 → IsKey P ⟨P, [x, -1, 0, 2]⟩ := fun x hx => ⟨rfl, by rw [hd]; norm_num, fun y hy => by
    rw [abs_le] at hx
    simp only [List.mem_cons, List.not_mem_nil, or_false] at hy
    rcases hy with rfl | rfl | rfl | rfl <;> omega⟩
  have hu : Cong (levelQ Ex.mods 0) (-1 * (keyRing 8 ⟨P, [0, -1, 0, 2]⟩ - keyRing 8 ⟨P, [1, -1, 0, 2]⟩)) 1 := by
    have : keyRing 8 ⟨P, [1, -1, 0, 2]⟩ - keyRing 8 ⟨P, [0, -1, 0, 2]⟩ = (1 : Rg 8) := by
      simp only [keyRing, ofCoeffs, Finset.sum_range_succ, Finset.sum_range_zero]
      simp
    rw [neg_one_mul, neg_sub, this]
    exact ⟨0, by simp⟩
  obtain ⟨ct, d, d', h1, h2, h3, h4⟩ := c136_two_messages h (hk 1 (by norm_num)) (hk 0 (by norm_num)) .release (by norm_num) (by norm_num) (by decide) (by decide) hu
    (m := [3, 1, 16, 0, 0, 0, 0, 2]) (m' := [0, 5, 0, 0, 0, 0, 0, 0]) rfl rfl (by decide) (by decide)
  exact ⟨P, _, _, ct, d, d', h, hk 1 (by norm_num), hk 0 (by norm_num), h1, h2, h3, h4⟩

/-- One query of two keys for the rows 1 and 2 of four. -/
example : ∃ (P : BfvParameters) (sk sk' : SecretKey) (q0 : BfvCipherText) (qs : List BfvCipherText), IsParams 8 17 Ex.mods 10 P ∧ IsKey P sk ∧ IsKey P sk' ∧
    IsQuery 8 P Ex.mods sk 4 [0, 1, 0, 0] q0 qs ∧ IsQuery 8 P Ex.mods sk' 4 [0, 0, 1, 0] q0 qs := by
  obtain ⟨P, h⟩ := Ex.exists_params
  have hd : P.degree = 8 := by
    obtain ⟨K, ext, hK, hw, -, -, -⟩ := BfvP.params h
    rw [hw.deg, hK]
  have hk : ∀ x : Int, |x| ≤ 1 → IsKey P ⟨P, [x]⟩ := fun x hx => ⟨rfl, by rw [hd]; norm_num, fun y hy => by
    rw [abs_le] at hx
    obtain rfl := List.mem_singleton.mp hy
    omega⟩
  have hu : Cong (levelQ Ex.mods 0) (1 * (keyRing 8 ⟨P, [1]⟩ - keyRing 8 ⟨P, [0]⟩)) 1 := by
    have : keyRing 8 ⟨P, [1]⟩ - keyRing 8 ⟨P, [0]⟩ = (1 : Rg 8) := by
      simp only [keyRing, ofCoeffs, Finset.sum_range_succ, Finset.sum_range_zero]
      simp
    rw [one_mul, this]
    exact ⟨0, by simp⟩
  obtain ⟨q0, qs, h1, h2⟩ := c136_query h (hk 0 (by norm_num)) (hk 1 (by norm_num)) (by norm_num) (by norm_num) hu (v := [0, 1, 0, 0]) (v' := [0, 0, 1, 0])
    (by norm_num) (by norm_num) (by decide) (by decide) 4
  exact ⟨P, _, _, q0, qs, h, hk 0 (by norm_num), hk 1 (by norm_num), h1, h2⟩

/-- Keys with coefficients up to 8 are told apart by one ciphertext. -/
example : ∃ P ct, IsParams 8 17 Ex.mods 10 P ∧ ∀ (pr pr' : Profile) (sk sk' : SecretKey), IsKey P sk → IsKey P sk' → Bdd 8 (keyRing 8 sk) → Bdd 8 (keyRing 8 sk') →
    sk.decrypt pr ct = sk'.decrypt pr' ct → keyRing 8 sk = keyRing 8 sk' := by
  obtain ⟨P, h⟩ := Ex.exists_params
  obtain ⟨ct, hct⟩ := c136_key h (S := 8) (by decide) (by decide) (by norm_num)
  exact ⟨P, ct, h, hct⟩

end OnionPIR
