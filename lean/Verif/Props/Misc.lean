import Verif.Props.Rns
import Verif.Props.Ksk
import Verif.Props.Pir
import Verif.Model.Pvw
/-
C70: stored fields, constructors and conversions that the other properties do not mention.
-/
namespace OnionPIR
open Rg Spec

variable {N t : Nat} {l : List Nat} {variance : Nat} {P : BfvParameters}

/-- C70: `q_star` holds the products of the other moduli, `q_tilde` their canonical inverses, `garner` the products of the two. -/
theorem c70_rns_fields {c : RnsContext} (hc : RnsContext.new l = .ok c) :
    c.moduliU64 = l ∧ c.qStar.length = l.length ∧ c.qTilde.length = l.length ∧ c.garner.length = l.length ∧
    ∀ (i q : Nat), l[i]? = some q → ∃ s r : Nat, c.qStar[i]? = some s ∧ c.qTilde[i]? = some r ∧ c.garner[i]? = some (s * r) ∧
      s * q = l.prod ∧ r < q ∧ s * r % q = 1 := by
  obtain ⟨hw, hm⟩ := RnsContext.new_wf hc
  unfold RnsContext.new at hc
  simp only [bind_eq_ok] at hc
  obtain ⟨ms, hms, qs, hqs, qt, hqt, hc⟩ := hc
  cases hc
  obtain ⟨l1, s1⟩ := mapR_inv hqs
  obtain ⟨l2, s2⟩ := mapR_inv hqt
  have hfold : l.foldl (fun acc q => acc * q) 1 = l.prod := by
    have := hw.prod
    simpa using this
  refine ⟨rfl, l1, l2, by simp [l1, l2], fun i q hq => ?_⟩
  obtain ⟨s, h1, h2⟩ := s1 i q hq
  obtain ⟨r, h3, h4⟩ := s2 i q hq
  have hb := hw.bound q (List.mem_of_getElem? hq)
  rw [hfold] at h2 h4
  rw [divR_ok (by omega)] at h2 h4
  cases h2
  rw [res_ok_bind, bind_eq_ok] at h4
  obtain ⟨v, h5, h6⟩ := h4
  rw [unwrapR_eq_ok] at h5 h6
  split_ifs at h6
  cases h6
  obtain ⟨-, h7, h8⟩ := modInverse_some hb.1 h5
  exact ⟨_, _, h1, h3, by simp [List.getElem?_zipWith, h1, h3],
    Nat.div_mul_cancel (List.dvd_prod (List.mem_of_getElem? hq)), h7, h8⟩

/-- C70: the context decryption scales into has the first modulus only; the multiplication parameters of a level go from its context to
its extended context. -/
theorem c70_param_fields (h : IsParams N t l variance P) :
    (∃ q0, l[0]? = some q0 ∧ IsContext N [q0] P.ptCtx) ∧
    ∀ i, i < l.length → ∃ m, P.mulParams[i]? = some m ∧ P.qCtxs[i]? = some m.src ∧ P.eCtxs[i]? = some m.dst := by
  obtain ⟨h1, h2, h3, pr, sample, bd, hs, hn⟩ := h
  unfold BfvParameters.new at hn
  simp only [bind_eq_ok] at hn
  obtain ⟨ext', hext, tInvs, htInvs, q0, hq0, ptCtx, hpt, levels, hlev, map, hmap, tm, htm, op, hop, hn⟩ := hn
  obtain ⟨l1, l2⟩ := mapR_inv hlev
  cases hn
  refine ⟨⟨q0, idx_eq_ok.mp hq0, ⟨by omega, pr, sample, bd, hs, hpt⟩⟩, fun i hi => ?_⟩
  obtain ⟨L, hL, hLv⟩ := l2 i i (by rw [List.getElem?_range (by simpa using hi)])
  unfold BfvParameters.level at hLv
  simp only [bind_eq_ok] at hLv
  obtain ⟨_, -, qCtx, hq, r, -, qModT, -, lifted, -, tip, -, tip', -, sf, -, scalar, -, sizes, hsz, sum, hsum, bits, hbits, count, hcount, extra,
    hextra, eCtx, he, one, -, down, -, mul, hmul, hL'⟩ := hLv
  cases hL'
  unfold MultiplicationParameters.new at hmul
  simp only [bind_eq_ok] at hmul
  obtain ⟨u, -, d, -, hm⟩ := hmul
  cases hm
  exact ⟨_, by rw [List.getElem?_map, hL]; rfl, by rw [List.getElem?_map, hL]; rfl, by rw [List.getElem?_map, hL]; rfl⟩

/-- C70: `Ksk::new_with_pt` makes a key-switching key for the scaled plaintext. -/
theorem c70_ksk_with_pt (h : IsParams N t l variance P) {sk : SecretKey} (hk : IsKey P sk) (pr : Profile) (hv1 : 1 ≤ variance) (hv2 : variance ≤ 16)
    {pt : Plaintext} (hp : pt.params = P) (hlev : pt.level < l.length) (hlen : pt.values.length ≤ N) (hv : ∀ x ∈ pt.values, x < 2 ^ 64)
    {aTape : Nat → Nat → Nat → Nat} (ha : ∀ j, TapeAt l pt.level (aTape j)) {rng : Nat → Nat → Nat} (hr : ∀ j i, rng j i < 2 ^ 64) :
    ∃ k, ∃ M : Rg N, Ksk.newWithPt pr sk pt pt.level pt.level aTape rng = .ok k ∧ k.params = P ∧
      IsKsk P l pt.level (keyRing N sk) M (2 * variance) k ∧ ∀ j, j < N →
        (cf M j = (levelQ l pt.level * (pt.values.getD j 0 % t) / t : Nat) ∨
          cf M j = (levelQ l pt.level * (pt.values.getD j 0 % t) / t : Nat) - 1) := by
  obtain ⟨p, M, h1, h2, h3⟩ := c29_to_poly h pr hp hlev hlen hv
  obtain ⟨k, h4, h5, h6⟩ := c36_new h hk pr hv1 hv2 h2 ha hr
  exact ⟨k, M, by unfold Ksk.newWithPt; rw [h1, res_ok_bind, h4], h5, h6, h3⟩

/-- C70: a decrypted plaintext has no encoding and cannot be decoded; after `set_encoding(Poly)` it decodes to its values. -/
theorem c70_decode_decrypted (h : IsParams N t l variance P) {sk : SecretKey} (hk : IsKey P sk) (pr pr' : Profile) {ct : BfvCipherText} {i : Nat}
    {fs : List (Rg N)} (hne : fs ≠ []) (hct : IsCt P i fs ct) :
    ∃ pt, sk.decrypt pr ct = .ok pt ∧ pt.encoding = .none ∧ pt.decode pr' = .error .assert ∧
      (pt.setEncoding .poly).decode pr' = .ok pt.values := by
  obtain ⟨pt, h1, h2⟩ := c30_decrypt_total h hk pr hne hct
  have h3 := h1
  unfold SecretKey.decrypt at h3
  simp only [bind_eq_ok] at h3
  obtain ⟨_, -, _, -, _, -, _, -, _, -, _, -, _, -, _, -, _, -, _, -, _, -, _, -, h3⟩ := h3
  cases h3
  refine ⟨_, h1, rfl, rfl, ?_⟩
  obtain ⟨K, ext, rfl, hw, -, -, -⟩ := BfvP.params h
  refine Poly.copyFromSlice_ok ?_
  rw [List.length_replicate]
  show sk.params.degree = _
  rw [hk.1, hw.deg]
  exact h2.1.symm

/-- C70: the expansion of a seed is a canonical polynomial and depends only on the seed and the context. -/
theorem c70_seed {Seed : Type} {ms : List Nat} {c : RqContext} (hc : IsContext N ms c) (expand : Seed → List Nat → Nat → Nat → Nat → Nat)
    (hx' : ∀ s i, i < ms.length → ∀ j, expand s ms N i j < ms.getD i 1) (rep : Representation) (seed : Seed) :
    (Poly.randomFromSeed c expand rep seed).context = c ∧ (Poly.randomFromSeed c expand rep seed).representation = rep ∧
      ValidRows c (Poly.randomFromSeed c expand rep seed).coefficients := by
  obtain ⟨K, rfl, hw, rfl⟩ := RqP.ctx hc
  have hlen : c.moduli.length = c.moduli64.length := by
    rw [hw.core.mods, hw.core.m64, ← hw.core.rns.ps, List.length_map]
  refine ⟨rfl, rfl, by simp [Poly.randomFromSeed, Poly.random, hlen], fun i hi => ?_⟩
  have : (Poly.randomFromSeed c expand rep seed).coefficients.getD i [] = (List.range c.degree).map (expand seed c.moduli64 c.degree i) := by
    simp [Poly.randomFromSeed, Poly.random, List.getD, hlen, hi]
  rw [this]
  refine ⟨by simp, fun x hx => ?_⟩
  obtain ⟨j, -, rfl⟩ := List.mem_map.mp hx
  rw [hw.core.deg]
  exact hx' seed i hi j

/-- C70: the two halves of a 256-bit number. -/
theorem c70_to_u128s (pr : Profile) {x : U256} (h0 : x.l0 < 2 ^ 64) (h1 : x.l1 < 2 ^ 64) (h2 : x.l2 < 2 ^ 64) (h3 : x.l3 < 2 ^ 64) :
    ∃ a b, x.toU128s pr = .ok (a, b) ∧ a < 2 ^ 128 ∧ b < 2 ^ 128 ∧
      a + 2 ^ 128 * b = x.l0 + 2 ^ 64 * x.l1 + 2 ^ 128 * x.l2 + 2 ^ 192 * x.l3 ∧ U256.ofU128s a b = x := by
  have e1 : x.l1 <<< 64 = x.l1 * 2 ^ 64 := Nat.shiftLeft_eq _ _
  have e2 : x.l3 <<< 64 = x.l3 * 2 ^ 64 := Nat.shiftLeft_eq _ _
  refine ⟨x.l0 + x.l1 * 2 ^ 64, x.l2 + x.l3 * 2 ^ 64, ?_, by omega, by omega, by ring, ?_⟩
  · unfold U256.toU128s
    rw [e1, e2, addW_ok (by omega), res_ok_bind, addW_ok (by omega)]; rfl
  · obtain ⟨a, b, c, d⟩ := x
    unfold U256.ofU128s
    simp only [Nat.shiftRight_eq_div_pow, U256.mk.injEq] at *
    refine ⟨?_, ?_, ?_, ?_⟩ <;> omega

/-- C70: a key made from given coefficients is usable exactly when they are `i64`s and not more than the degree. -/
theorem c70_secret_key_new (coeffs : List Int) :
    IsKey P (SecretKey.new coeffs P) ↔ coeffs.length ≤ P.degree ∧ ∀ x ∈ coeffs, -2 ^ 63 ≤ x ∧ x < 2 ^ 63 := by
  unfold IsKey SecretKey.new
  simp

/-- C70: the default client addresses the 64 rows of a 4 × 4 × 4 cube. -/
theorem c70_client_default (pr : Profile) {i0 i1 i2 : Nat} (h0 : i0 < 4) (h1 : i1 < 4) (h2 : i2 < 4) :
    ∃ v, Client.default.encode pr [i0, i1, i2] 64 = .ok v ∧ v.length = 12 ∧ OneHotAt v 0 4 i0 ∧ OneHotAt v 4 4 i1 ∧ OneHotAt v 8 4 i2 := by
  obtain ⟨v, a, b, c, d⟩ := c42_encode pr Client.default (i0 := i0) (rest := [i1, i2]) h0
    (by intro i hi; simp at hi; rcases hi with rfl | rfl <;> assumption) (by norm_num [Client.default]) (by simp) (dbRows := 64) rfl
  exact ⟨v, a, b, c, d 0 (by simp), d 1 (by simp)⟩

/-- C70: `PvwParams::new` is not implemented. -/
theorem c70_pvw_new : PvwParams.new = .error .todo := rfl

/-- The fields for the moduli 3, 5, 7. -/
example : (fun c : RnsContext => (c.qStar, c.qTilde, c.garner)) <$> RnsContext.new [3, 5, 7] =
    .ok ([35, 21, 15], [2, 1, 1], [70, 21, 15]) := by decide +kernel

/-- Actual parameters, key and ciphertext, and a key-switching key for a plaintext. -/
example : ∃ P sk ct pt k, ∃ M : Rg 8, IsParams 8 17 Ex.mods 10 P ∧ sk.decrypt .debug ct = .ok pt ∧
    (pt.setEncoding .poly).decode .release = .ok pt.values ∧
    Ksk.newWithPt .debug sk ⟨P, 0, .poly, [3, 16]⟩ 0 0 (fun _ _ _ => 0) (fun _ i => i % 1000) = .ok k ∧
    IsKsk P Ex.mods 0 (keyRing 8 sk) M 20 k := by
  obtain ⟨P, sk, ct, f0, f1, h, hk, hb, hct, he⟩ := Ex.setup
  obtain ⟨pt, h1, -, -, h2⟩ := c70_decode_decrypted h hk .debug .release (by simp) hct
  obtain ⟨k, M, h3, -, h4, -⟩ := c70_ksk_with_pt h hk .debug (by norm_num) (by norm_num) (pt := ⟨P, 0, .poly, [3, 16]⟩) rfl
    (show 0 < Ex.mods.length by decide) (by simp) (by simp) (aTape := fun _ _ _ => 0) (fun _ => Ex.tape0 fun q hq => Ex.mods_gt q hq) (rng := fun _ i => i % 1000)
    (fun _ => Ex.wordTape)
  exact ⟨P, sk, ct, pt, k, M, h, h1, h2, h3, by simpa using h4⟩

example : (U256.mk 1 2 3 4).toU128s .debug = .ok (1 + 2 ^ 65, 3 + 2 ^ 66) := by decide +kernel

/-- C70 for actual parameters, the row `(1, 3, 0)` and a constant expansion of the seed. -/
example : ∃ (P : BfvParameters) (c : RqContext), IsParams 8 17 Ex.mods 10 P ∧ IsContext 8 [1048609] P.ptCtx ∧ (∃ m, P.mulParams[1]? = some m) ∧ P.qCtxs[0]? = some c ∧
    ValidRows c (Poly.randomFromSeed c (fun (s : Nat) _ _ i j => s % 8 + i + j % 8) .ntt 7).coefficients ∧
    (∃ a b, (U256.mk 1 2 3 4).toU128s .release = .ok (a, b) ∧ U256.ofU128s a b = U256.mk 1 2 3 4) ∧
    ∃ v, Client.default.encode .release [1, 3, 0] 64 = .ok v ∧ v.length = 12 := by
  obtain ⟨P, h⟩ := Ex.exists_params
  obtain ⟨⟨q0, h1, h2⟩, h3⟩ := c70_param_fields h
  cases h1
  obtain ⟨m, h4, -⟩ := h3 1 (by decide)
  obtain ⟨-, -, -, -, -, -, -, ext, -, -, h5⟩ := c51_levels h
  obtain ⟨c, e, hq, -, hc, -⟩ := h5 0 (by decide)
  obtain ⟨a, b, h6, -, -, -, h7⟩ := c70_to_u128s .release (x := U256.mk 1 2 3 4) (by norm_num) (by norm_num) (by norm_num) (by norm_num)
  obtain ⟨v, h8, h9, -⟩ := c70_client_default .release (i0 := 1) (i1 := 3) (i2 := 0) (by norm_num) (by norm_num) (by norm_num)
  refine ⟨P, c, h, h2, ⟨m, h4⟩, hq, (c70_seed hc (fun (s : Nat) _ _ i j => s % 8 + i + j % 8) ?_ .ntt 7).2.2, ⟨a, b, h6, h7⟩, v, h8, h9⟩
  intro s i hi j
  have h1 := Nat.mod_lt s (show 0 < 8 by norm_num)
  have h2 := Nat.mod_lt j (show 0 < 8 by norm_num)
  have : ∀ i, i < (levelModuli Ex.mods 0).length → 1048609 ≤ (levelModuli Ex.mods 0).getD i 1 ∧ i < 3 := by decide
  have := this i hi
  omega

/-- C70: the fields of a context for 3, 5, 7. -/
example : ∃ c s r, RnsContext.new [3, 5, 7] = .ok c ∧ c.moduliU64 = [3, 5, 7] ∧ c.qStar[1]? = some s ∧ c.qTilde[1]? = some r ∧ s * 5 = 105 ∧
    s * r % 5 = 1 := by
  obtain ⟨c, hc⟩ := (c18_new_iff [3, 5, 7]).mpr ⟨by decide, by decide +kernel⟩
  obtain ⟨h1, -, -, -, h2⟩ := c70_rns_fields hc
  obtain ⟨s, r, h3, h4, -, h5, -, h6⟩ := h2 1 5 rfl
  exact ⟨c, s, r, hc, h1, h3, h4, h5, h6⟩

end OnionPIR
