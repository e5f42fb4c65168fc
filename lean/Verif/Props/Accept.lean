import Verif.Props.Bfv
import Verif.Proofs.BfvAccept
/-
C113 (src/bfv.rs:46-182): exactly which arguments `BfvParameters::new` accepts, in either build, and what becomes of a plaintext modulus above the
first ciphertext modulus, which the release build accepts.
-/
namespace OnionPIR
open Spec BfvParameters

variable {N t : Nat} {l : List Nat} {sample : Nat → Nat → Nat}

/-- C113: whatever the sampler draws, accepted arguments are acceptable. -/
theorem c113_necessary {pr : Profile} (hs : ∀ p i, 0 < p → sample p i < p) (hN : N < 2 ^ 64) {variance : Nat} {bd : BitDecomposition}
    {P : BfvParameters} (h : BfvParameters.new pr sample N t l variance bd = .ok P) : Acceptable N t l := new_acceptable hs hN h

/-- C113, debug build: the accepted arguments are the acceptable ones with the plaintext modulus below every ciphertext modulus. -/
theorem c113_debug (hN : N < 2 ^ 64) (hl : l.length ≤ 2 ^ 30) (hs : GoodSampler N sample) (variance : Nat) (bd : BitDecomposition) :
    (∃ P, BfvParameters.new .debug sample N t l variance bd = .ok P) ↔ Acceptable N t l ∧ ∀ q ∈ l, t < q := by
  constructor
  · rintro ⟨P, h⟩
    refine ⟨new_acceptable hs.1 hN h, fun q hq => ?_⟩
    unfold BfvParameters.new at h
    simp only [bind_eq_ok] at h
    obtain ⟨ext, hext, tInvs, htInvs, -⟩ := h
    obtain ⟨r, hr⟩ := NttSampler.mapR_mem htInvs hq
    exact tInvRest_debug hr
  · rintro ⟨h, ht⟩
    exact acceptable_ok h hs hl (fun q hq => ⟨_, tInvRest_ok .debug h.plain.1.pos (ht q hq) (h.moduli q hq).2.1⟩) variance bd

/-- C113, release build: the accepted arguments are the acceptable ones; nothing compares the plaintext modulus with the ciphertext moduli. -/
theorem c113_release (hN : N < 2 ^ 64) (hl : l.length ≤ 2 ^ 30) (hs : GoodSampler N sample) (variance : Nat) (bd : BitDecomposition) :
    (∃ P, BfvParameters.new .release sample N t l variance bd = .ok P) ↔ Acceptable N t l := by
  constructor
  · rintro ⟨P, h⟩
    exact new_acceptable hs.1 hN h
  · intro h
    exact acceptable_ok h hs hl (fun q hq => tInvRest_release h.plain.2.1 (h.moduli q hq).1.two_le (h.moduli q hq).2.1) variance bd

/-- C113: hence what the debug build returns are parameters in the sense of the other properties, which ask for a plaintext modulus below every
ciphertext modulus. -/
theorem c113_debug_params (hs : ∀ p i, 0 < p → sample p i < p) (hN : N < 2 ^ 64) (hl : l.length ≤ 2 ^ 30) {variance : Nat} {bd : BitDecomposition}
    {P : BfvParameters} (h : BfvParameters.new .debug sample N t l variance bd = .ok P) : IsParams N t l variance P := by
  have ha := new_acceptable hs hN h
  refine ⟨?_, hl, fun q hq => ?_, .debug, sample, bd, hs, h⟩
  · obtain ⟨t1, t2, t3⟩ := ha.plain
    by_contra hc
    rw [Nat.mod_eq_of_lt (by omega)] at t3
    exact t1.one_lt.ne' t3
  · unfold BfvParameters.new at h
    simp only [bind_eq_ok] at h
    obtain ⟨ext, hext, tInvs, htInvs, -⟩ := h
    obtain ⟨r, hr⟩ := NttSampler.mapR_mem htInvs hq
    exact tInvRest_debug hr

namespace Accept

theorem addW_word {pr : Profile} {a b r : Nat} (h : addW 64 pr a b = .ok r) : r < 2 ^ 64 := by
  unfold addW fit at h
  cases pr
  all_goals simp only at h
  all_goals split_ifs at h
  all_goals first | (cases h; assumption) | (cases h; exact Nat.mod_lt _ (by norm_num)) | cases h

theorem mapR_all {α β : Type} {f : α → Res β} {l : List α} {r : List β} {p : β → Prop} (h : mapR f l = .ok r)
    (hp : ∀ a b, a ∈ l → f a = .ok b → p b) : ∀ b ∈ r, p b := by
  obtain ⟨h1, h2⟩ := mapR_inv h
  intro b hb
  obtain ⟨i, hi, rfl⟩ := List.getElem_of_mem hb
  obtain ⟨b, hb', hf⟩ := h2 i (l[i]'(by omega)) (List.getElem?_eq_getElem _)
  rw [List.getElem?_eq_getElem hi] at hb'
  rw [Option.some.inj hb']
  exact hp _ _ (List.getElem_mem _) hf

end Accept

/-- C113: for all parameters that `BfvParameters::new` returns in either build, decryption never returns a coefficient that is not below the first
ciphertext modulus. If the plaintext modulus is above it, messages with larger coefficients are lost. -/
theorem c113_capped {pr pr' : Profile} (hs : ∀ p i, 0 < p → sample p i < p) (hN : N < 2 ^ 64) {variance : Nat} {bd : BitDecomposition}
    {sk : SecretKey} (h : BfvParameters.new pr sample N t l variance bd = .ok sk.params) {ct : BfvCipherText} {pt : Plaintext}
    (hd : sk.decrypt pr' ct = .ok pt) : ∃ q, l[0]? = some q ∧ ∀ v ∈ pt.values, v < t ∧ v < q := by
  have ha := new_acceptable hs hN h
  unfold BfvParameters.new at h
  simp only [bind_eq_ok] at h
  obtain ⟨ext, hext, tInvs, htInvs, q0, hq0, ptCtx, hpt, levels, hlev, map, hmap, tm, htm, op, hop, h⟩ := h
  have hP := (Except.ok.inj h).symm
  have hq0' : l[0]? = some q0 := by
    unfold idx at hq0
    split at hq0
    · rename_i x hx; cases hq0; exact hx
    · cases hq0
  refine ⟨q0, hq0', ?_⟩
  unfold SecretKey.decrypt at hd
  simp only [bind_eq_ok] at hd
  obtain ⟨m1, -, m2, -, sc, -, m3, -, row1, -, row2, hr2, row3, hr3, ctx, hctx, q, hq, row4, hr4, tm', htm', row5, hr5, hd⟩ := hd
  cases hd
  rw [hP] at hctx htm'
  simp only at hctx htm' ⊢
  obtain ⟨-, -, e, htw⟩ := Modulus.new_inv htm'
  have hw2 : ∀ v ∈ row2, v < 2 ^ 64 := Accept.mapR_all hr2 fun a b _ hab => Accept.addW_word hab
  have hw3 : ∀ v ∈ row3, v < 2 ^ 64 := by
    unfold takeR at hr3
    split_ifs at hr3
    cases hr3
    exact fun v hv => hw2 v (List.mem_of_mem_take hv)
  -- the modulus at the front of every level
  have hfront : q.WF ∧ q.p = q0 := by
    have hi : (levels.map (·.qCtx))[ct.level]? = some ctx := by
      unfold idx at hctx
      split at hctx
      · rename_i x hx; cases hctx; exact hx
      · cases hctx
    rw [List.getElem?_map, Option.map_eq_some_iff] at hi
    obtain ⟨L, hL, rfl⟩ := hi
    obtain ⟨l1, l2⟩ := mapR_inv hlev
    have hlt : ct.level < l.length := by
      have := (List.getElem?_eq_some_iff.mp hL).1
      rw [l1, List.length_range] at this
      exact this
    obtain ⟨L', hL', hLe⟩ := l2 ct.level ct.level (by simp [hlt])
    rw [hL] at hL'
    cases hL'
    unfold level at hLe
    rw [takeR_ok (by omega), res_ok_bind, bind_eq_ok] at hLe
    obtain ⟨c, hc, hLe⟩ := hLe
    have hcL : L.qCtx = c := by
      simp only [bind_eq_ok] at hLe
      obtain ⟨_, -, _, -, _, -, _, -, _, -, _, -, _, -, _, -, _, -, _, -, _, -, _, -, _, -, _, -, _, -, _, -, hLe⟩ := hLe
      cases hLe
      rfl
    obtain ⟨K, -, hcw, hcm⟩ := RqContext.new_wf hs hN hc
    rw [hcL] at hq
    have hmm : c.moduli.map Modulus.p = c.moduli64 := by rw [hcw.core.mods, hcw.core.rns.ps, hcw.core.m64]
    have hq' : c.moduli[0]? = some q := by
      unfold idx at hq
      split at hq
      · rename_i x hx; cases hq; exact hx
      · cases hq
    refine ⟨hcw.core.mod_wf (List.mem_of_getElem? hq'), ?_⟩
    have h1 : (c.moduli.map Modulus.p)[0]? = some q.p := by rw [List.getElem?_map, hq']; rfl
    rw [hmm, hcm, List.getElem?_take_of_lt (by omega), hq0'] at h1
    exact (Option.some.inj h1).symm
  obtain ⟨hqw, rfl⟩ := hfront
  have hw4 : ∀ v ∈ row4, v < q.p := Accept.mapR_all hr4 fun a b hab hb => by
    rw [Modulus.reduce_ok hqw _ (hw3 a hab)] at hb
    cases hb
    exact Nat.mod_lt _ hqw.pos
  refine Accept.mapR_all hr5 fun a b hab hb => ?_
  have := hw4 a hab
  have := hqw.lt
  rw [Modulus.reduce_ok htw _ (by omega)] at hb
  cases hb
  refine ⟨e ▸ Nat.mod_lt _ htw.pos, lt_of_le_of_lt (Nat.mod_le _ _) (hw4 a hab)⟩

namespace Accept

open Ex in
theorem acceptable : Acceptable 8 1048609 [17, 97] where
  degree := ⟨3, le_rfl, rfl⟩
  plain := ⟨by norm_num, by norm_num, by norm_num⟩
  ne := by simp
  nodup := by decide
  moduli := by
    simp only [List.mem_cons, List.not_mem_nil, or_false]
    rintro q (rfl | rfl) <;> exact ⟨by norm_num, by norm_num, by norm_num⟩
  spare := ⟨bigPrimes.take 3, by decide, by simp [bigPrimes], fun p hp => by
    have hp := List.mem_of_mem_take hp
    have h : 2 ^ 61 ≤ p ∧ p < 2 ^ 62 ∧ p % (2 * 8) = 1 ∧ p ∉ [17, 97] := by
      revert p; unfold bigPrimes; decide
    exact ⟨⟨bigPrimes_prime p hp, h.2.1, h.2.2.1⟩, h.1, h.2.2.2⟩⟩

theorem goodSampler : GoodSampler 8 Ex.goodSample :=
  ⟨Ex.goodSample_lt, fun q hq => ⟨0, by norm_num, Ex.goodSample_good hq.1 (by rintro rfl; have := hq.2.2; norm_num at this)⟩⟩

end Accept

/-- The plaintext modulus 1048609 above the ciphertext moduli 17 and 97: the debug build refuses it, the release build accepts it. -/
example (variance : Nat) (bd : BitDecomposition) : (∃ P, BfvParameters.new .release Ex.goodSample 8 1048609 [17, 97] variance bd = .ok P) ∧
    ¬ ∃ P, BfvParameters.new .debug Ex.goodSample 8 1048609 [17, 97] variance bd = .ok P := by
  refine ⟨(c113_release (by norm_num) (by simp) Accept.goodSampler variance bd).mpr Accept.acceptable, fun h => ?_⟩
  have := ((c113_debug (by norm_num) (by simp) Accept.goodSampler variance bd).mp h).2 17 (by simp)
  norm_num at this

/-- Parameters, a key and a ciphertext that `c113_capped` applies to. -/
example : ∃ (pr : Profile) (sample : Nat → Nat → Nat) (bd : BitDecomposition) (sk : SecretKey) (ct : BfvCipherText) (pt : Plaintext),
    BfvParameters.new pr sample 8 17 Ex.mods 10 bd = .ok sk.params ∧ sk.decrypt .release ct = .ok pt ∧ pt.values.length = 8 ∧
    ∀ v ∈ pt.values, v < 17 ∧ v < 1048609 := by
  obtain ⟨P, sk, ct, f0, f1, h, hk, -, hct, -⟩ := Ex.setup
  obtain ⟨pt, h1, h2⟩ := c30_decrypt_total h hk .release (by simp) hct
  obtain ⟨-, -, -, pr, sample, bd, hs, hn⟩ := h
  rw [← hk.1] at hn
  obtain ⟨q, hq, hv⟩ := c113_capped hs (by norm_num) hn h1
  cases hq
  exact ⟨pr, sample, bd, sk, ct, pt, hn, h1, h2.1, hv⟩

/-- A repeated modulus and a composite one are refused by both builds. -/
example (pr : Profile) (variance : Nat) (bd : BitDecomposition) :
    (¬ ∃ P, BfvParameters.new pr Ex.goodSample 8 17 [97, 97] variance bd = .ok P) ∧
    ¬ ∃ P, BfvParameters.new pr Ex.goodSample 8 17 [33] variance bd = .ok P := by
  constructor
  · rintro ⟨P, h⟩
    have := (c113_necessary Ex.goodSample_lt (by norm_num) h).nodup
    simp at this
  · rintro ⟨P, h⟩
    have := ((c113_necessary Ex.goodSample_lt (by norm_num) h).moduli 33 (by simp)).1
    norm_num at this

end OnionPIR
