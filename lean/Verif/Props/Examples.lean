import Verif.Props.Accept
import Verif.Props.Accessors
import Verif.Props.AnyEntries
import Verif.Props.AnySize
import Verif.Props.Debug
import Verif.Props.LeakServer
import Verif.Props.Linear
import Verif.Props.Mask
import Verif.Props.PrimeTest
import Verif.Props.Random
import Verif.Props.RepairMore
import Verif.Props.RgswPrivacy
import Verif.Props.RqExtra
import Verif.Props.Stop
import Verif.Props.Watch
import Verif.Props.Weighted

/-!
Concrete instances of theorems that are not used by the examples in their own files. Each one supplies values that meet the hypotheses.
Two theorems have no instance here. The hypotheses of `c44_decode_partial` are those that the proof of `c44_answer_partial` supplies, which has an
example in its file. The hypotheses of `c98_is_prime` are facts about all numbers below `2^64` that are known from computation only.
-/

namespace OnionPIR
open Rg Poly Spec OnionPIR.Prime

/-- `c113_debug_params`. -/
example (variance : Nat) (bd : BitDecomposition) : ∃ P, BfvParameters.new .debug Ex.goodSample 8 17 [97, 193] variance bd = .ok P ∧
    IsParams 8 17 [97, 193] variance P := by
  have hA : Acceptable 8 17 [97, 193] :=
    { degree := ⟨3, le_rfl, rfl⟩
      plain := ⟨by norm_num, by norm_num, by norm_num⟩
      ne := by simp
      nodup := by decide
      moduli := by
        simp only [List.mem_cons, List.not_mem_nil, or_false]
        rintro q (rfl | rfl) <;> exact ⟨by norm_num, by norm_num, by norm_num⟩
      spare := ⟨Ex.bigPrimes.take 3, by decide, by simp [Ex.bigPrimes], fun p hp => by
        have hp := List.mem_of_mem_take hp
        have h : 2 ^ 61 ≤ p ∧ p < 2 ^ 62 ∧ p % (2 * 8) = 1 ∧ p ∉ [97, 193] := by
          revert p; unfold Ex.bigPrimes; decide
        exact ⟨⟨Ex.bigPrimes_prime p hp, h.2.1, h.2.2.1⟩, h.1, h.2.2.2⟩⟩ }
  obtain ⟨P, h⟩ := (c113_debug (N := 8) (t := 17) (l := [97, 193]) (by norm_num) (by simp) Accept.goodSampler variance bd).mpr ⟨hA, by simp⟩
  exact ⟨P, h, c113_debug_params Ex.goodSample_lt (by norm_num) (by simp) h⟩

/-- `c70_shr`: a shift over two word boundaries. -/
example (pr : Profile) : ∃ y, U256.shrCopy pr ⟨1, 2, 3, 2 ^ 63⟩ 130 = .ok y ∧ y.WF ∧ y.val = (1 + 2 * 2 ^ 64 + 3 * 2 ^ 128 + 2 ^ 63 * 2 ^ 192) / 2 ^ 130 := by
  obtain ⟨y, h1, h2, h3⟩ := c70_shr pr (x := ⟨1, 2, 3, 2 ^ 63⟩) (by unfold U256.WF; norm_num) (k := 130) (by norm_num)
  exact ⟨y, h1, h2, h3.trans (by unfold U256.val; norm_num)⟩

/-- `c95_unpack_lines`. -/
example : ∃ a b, Dbg.unpackLines [3, 0] [3, 1] = [a, b] ∧ a ≠ b :=
  ⟨_, _, rfl, fun h => absurd ((c95_unpack_lines _ _ _ _ rfl).mp h) (by decide)⟩

/-- `c98_accepted`: the prime 97 is accepted. -/
example : probablyPrime 97 = .ok true ∧ (97).Coprime (2 * primesA * primesB) := by
  have h := c98_primes (n := 97) (by norm_num) (Or.inl (by norm_num))
  refine ⟨h, ?_⟩
  rcases c98_accepted 97 h with - | h'
  · decide +kernel
  · exact h'.2.1

/-- `c80_pvw_default`: the randomness with which the original parameters go wrong. -/
example (pr : Profile) : pvwRun pr Repair.pvwDefault (fun _ _ => 0) (fun _ _ => 0) (fun _ _ => 0x0F0F0F0F0F0F0F0F)
    (fun m => if m < 4096 then 1 else 0) [0, 0, 0, 0] = .ok [0, 0, 0, 0] :=
  c80_pvw_default pr ⟨by decide, by decide, by decide, by decide, fun _ _ => by decide, fun _ _ => by decide, fun _ _ => by norm_num,
    fun m => by split_ifs <;> omega⟩ rfl (by simp)

/-- `c80_no_of_cts`: eleven rows in dimensions two and three. -/
example (P : BfvParameters) : ∃ k, Repair.noOfCts .release ⟨2, 3, List.replicate 11 ⟨P, 0, .poly, [1]⟩, []⟩ 62 = .ok (2 + 3 * k) ∧
    11 / 2 / 3 ^ k ≤ 1 := by
  obtain ⟨-, h⟩ := c80_no_of_cts .release ⟨2, 3, List.replicate 11 ⟨P, 0, .poly, [1]⟩, []⟩ (by simp) (le_refl 62)
  rcases h (by norm_num) (by norm_num) with ⟨k, h1, h2, -⟩ | h
  · exact ⟨k, h1, by simpa using h2⟩
  · exact absurd h.2.1 (by norm_num)

/-- `c80_scale_one`: contexts whose common modulus is not a prefix. -/
example (pr : Profile) : ∃ src dst sf s a b, ∃ C : Nat → ℤ, IsContext 8 [17, 97] src ∧ IsContext 8 [17, 97] dst ∧ ScalingFactor.new 3 3 = .ok sf ∧
    Denotes src .ntt (cf (xx : Rg 8)) a ∧ Repair.rqScalerNew pr src dst sf = .ok s ∧ s.scale pr a = .ok b ∧ Denotes dst .ntt C b ∧
    C 1 ≡ 1 [ZMOD 17 * 97] := by
  obtain ⟨c, hc⟩ := exists_context
  obtain ⟨p, hp⟩ := RqP.exists_denotes hc xx
  obtain ⟨sf, hsf⟩ : ∃ sf, ScalingFactor.new 3 3 = .ok sf := ⟨_, rfl⟩
  obtain ⟨s, b, C, h1, h2, h3, h4⟩ := c80_scale_one hc hc (by norm_num) pr (by norm_num) hsf (B := 194) (by simp) (r := .ntt) (by simp) hp
  have := (h4 1 (by norm_num)).1
  refine ⟨c, c, sf, s, p, b, C, hc, hc, hsf, hp, h1, h2, h3, ?_⟩
  rw [show cf (xx : Rg 8) 1 = 1 from by simpa using cf_xx_pow (N := 8) (by norm_num) (m := 1) (by norm_num) 1] at this
  simpa using this

/-- `c58_power_basis`. -/
example (pr : Profile) : ∃ c, IsContext 8 [17, 97] c ∧ ∃ f : Rg 8, ∃ p, Denotes c .powerBasis (cf f) p ∧ p.inverse pr = .ok p ∧
    ¬ Cong ([17, 97] : List Nat).prod (f * f) 1 := by
  obtain ⟨c, hc⟩ := exists_context
  exact ⟨c, hc, c58_power_basis hc pr⟩

/-- `c88_primitive_root`: the outcome for two words. -/
example (pr : Profile) : ∃ m, Modulus.new 17 = .ok m ∧ (primitiveRootWords pr 8 m [2 ^ 63, 2 ^ 64 - 2] = .error .diverge ∨
    ∃ sample : Nat → Nat, (∀ i, sample i < 17) ∧ primitiveRootWords pr 8 m [2 ^ 63, 2 ^ 64 - 2] = primitiveRoot pr 8 m sample) := by
  obtain ⟨m, hm⟩ : ∃ m, Modulus.new 17 = .ok m := ⟨_, rfl⟩
  refine ⟨m, hm, ?_⟩
  rcases c88_primitive_root hm pr 8 (ws := [2 ^ 63, 2 ^ 64 - 2]) (by simp) with h | ⟨sample, h1, -, h2⟩
  · exact Or.inl h
  · exact Or.inr ⟨sample, h1, h2⟩

/-- `c122_scale` and `c122_scale_constant`: scaling by 17/1649 from the moduli 97 and 17 to the modulus 113. -/
example : ∃ s r r' v v', RnsScaler.scale .release s r 1 0 = .ok v ∧ RnsScaler.scale .release s r' 1 0 = .ok v' ∧ r ≠ r' ∧
    (Repair.scaleL .release s r 1 0).val = .ok v ∧ (Repair.scaleL .release s r 1 0).trace = (Repair.scaleL .release s r' 1 0).trace := by
  obtain ⟨src, hs⟩ := (c18_new_iff [97, 17]).mpr ⟨by decide +kernel, by decide +kernel⟩
  obtain ⟨dst, hd⟩ := (c18_new_iff [113]).mpr ⟨by decide, by decide +kernel⟩
  obtain ⟨sf, s, h1, h2⟩ := c19_new_succeeds .release hs hd (by decide) (by decide) (num := 17) (den := 1649) (by norm_num)
  obtain ⟨_, _, e1, -⟩ := c19_scale_eight .release hs hd (by decide) (by decide) h1 h2 (r := [96, 16]) ⟨rfl, by decide⟩ (outLen := 1) (start := 0)
    (by norm_num) (by simp)
  obtain ⟨_, _, e2, -⟩ := c19_scale_eight .release hs hd (by decide) (by decide) h1 h2 (r := [5, 3]) ⟨rfl, by decide⟩ (outLen := 1) (start := 0)
    (by norm_num) (by simp)
  exact ⟨s, _, _, _, _, e1, e2, by decide, c122_scale _ _ _ _ _ e1, c122_scale_constant s (r := [96, 16]) (r' := [5, 3]) (by simp) 1 0 e1 e2⟩

/-- `c126_full` and `c126_saves`. -/
example : ∃ P ev p, IsParams 8 17 Ex.mods4 10 P ∧ ShapedEval 8 P ev ∧ PolyAt P 0 (msgRing 8 [4, 2] : Rg 8) p ∧
    Repair.unpackTo .debug 3 ev ⟨P, [p, p], 0⟩ = Repair.unpack .debug ev ⟨P, [p, p], 0⟩ := by
  obtain ⟨P, h⟩ := Ex.exists_params4
  obtain ⟨p, hp⟩ := c33_exists_poly h (i := 0) (by decide) (msgRing 8 [4, 2])
  obtain ⟨ev, hev⟩ := c99_exists_eval h (by norm_num) (Shape.of_polyAt h hp)
  exact ⟨P, ev, p, h, hev, hp, c126_full h .debug ev (by norm_num) rfl⟩

example : stoppedRows 2 4 4 2 2 1 + 5 * (4 * 24) ≤ answerRows 8 4 4 2 2 1 ∧ stoppedWords 2 4 4 2 2 1 + 5 * (4 * 44) ≤ answerWords 8 4 4 2 2 1 :=
  c126_saves (N := 8) 4 4 2 2 1 (e := 2) (by norm_num)

/-- `c120_last`: at the last level the trace of decryption is the same for different keys and ciphertexts. -/
example : ∃ P sk sk' p q, IsParams 8 17 Ex.mods 10 P ∧ IsKey P sk ∧ IsKey P sk' ∧ PolyAt P 2 (msgRing 8 [0, 1] : Rg 8) p ∧
    PolyAt P 2 (msgRing 8 [5] : Rg 8) q ∧ sk ≠ sk' ∧
    (sk.decryptL .release ⟨P, [p, q], 2⟩).trace = (sk'.decryptL .release ⟨P, [q, p], 2⟩).trace := by
  obtain ⟨P, h⟩ := Ex.exists_params
  obtain ⟨p, hp⟩ := c33_exists_poly h (i := 2) (by decide) (msgRing 8 [0, 1])
  obtain ⟨q, hq⟩ := c33_exists_poly h (i := 2) (by decide) (msgRing 8 [5])
  have hx : IsCt P 2 [msgRing 8 [0, 1], msgRing 8 [5]] ⟨P, [p, q], 2⟩ := ⟨rfl, rfl, .cons hp (.cons hq .nil)⟩
  have hy : IsCt P 2 [msgRing 8 [5], msgRing 8 [0, 1]] ⟨P, [q, p], 2⟩ := ⟨rfl, rfl, .cons hq (.cons hp .nil)⟩
  have hk : IsKey P ⟨P, [1, 0, 0, 0, 0, 0, 0, 0]⟩ := ⟨rfl, by rw [(c51_levels h).1]; simp, by simp⟩
  have hk' : IsKey P ⟨P, [0, 0, -1, 0, 0, 0, 0, 3]⟩ := ⟨rfl, by rw [(c51_levels h).1]; simp, by simp⟩
  have ht := c120_last h (by simp [Ex.mods]) (by simp [Ex.mods]) hk hk' (by simp) (by simp) (by simp) hx hy
  exact ⟨P, ⟨P, [1, 0, 0, 0, 0, 0, 0, 0]⟩, ⟨P, [0, 0, -1, 0, 0, 0, 0, 3]⟩, p, q, h, hk, hk', hp, hq, by simp, ht⟩

/-- `c82_ksk`: two key-switching keys for the generated key, one for the key itself and one for zero. -/
example : ∃ (P : BfvParameters) (sk : Words 20 → SecretKey) (p p' : Words 20 → Poly) (g : Nat → ℤ), IsParams 8 17 Ex.mods 10 P ∧
    (∀ ω, PolyAt P 1 (0 + 1 * keyRing 8 (sk ω)) (p ω)) ∧ (∀ ω, PolyAt P 1 (0 + 0 * keyRing 8 (sk ω)) (p' ω)) ∧ ∀ D : Unit → Ksk → Prop,
    |prob (fun x : Words 20 × KskCoins 8 Ex.mods 1 (levelModuli Ex.mods 1).length 5 =>
        ∃ key, Ksk.new .release (sk x.1) (p x.1) 1 1 x.2.tape x.2.words = .ok key ∧ D () key) -
      prob (fun x : Words 20 × KskCoins 8 Ex.mods 1 (levelModuli Ex.mods 1).length 5 =>
        ∃ key, Ksk.new .release (sk x.1) (p' x.1) 1 1 x.2.tape x.2.words = .ok key ∧ D () key)| ≤
      rlweAdvantage (Q := levelQ Ex.mods 1) 5 10 (fun ω => keyRing 8 (sk ω)) (fun _ => ())
        (shiftedBy (StoredKsk P 1) (fun j : Fin (levelModuli Ex.mods 1).length => (0 * (g j : Rg 8), 1 * (g j : Rg 8))) D) +
      rlweAdvantage (Q := levelQ Ex.mods 1) 5 10 (fun ω => keyRing 8 (sk ω)) (fun _ => ())
        (shiftedBy (StoredKsk P 1) (fun j : Fin (levelModuli Ex.mods 1).length => (0 * (g j : Rg 8), 0 * (g j : Rg 8))) D) := by
  obtain ⟨P, h⟩ := Ex.exists_params
  choose sk h1 h2 _ using fun ω : Words 20 => c30_generate h .release (by norm_num) (by norm_num) (Privacy.stream_lt ω)
  choose p hp using fun ω => c33_exists_poly h (i := 1) (by decide) (0 + 1 * keyRing 8 (sk ω))
  choose p' hp' using fun ω => c33_exists_poly h (i := 1) (by decide) (0 + 0 * keyRing 8 (sk ω))
  obtain ⟨g, -, hg⟩ := c82_ksk h (i := 1) (by decide) .release (by norm_num) (by norm_num)
  exact ⟨P, sk, p, p', g, h, hp, hp', fun D => hg h2 5 hp hp' (fun _ => ()) D⟩

/-- `c121_new`, `c121_unpack` and `c121_as_is`. -/
example : ∃ P p p' ev ev' srv, IsParams 8 17 Ex.mods4 10 P ∧ ShapedEval 8 P ev ∧ ShapedEval 8 P ev' ∧ p ≠ p' ∧
    (Repair.unpackL .release ev ⟨P, [p, p], 0⟩).trace = (Repair.unpackL .release ev' ⟨P, [p', p], 0⟩).trace ∧
    (Server.newL .release 2 2 [⟨P, 0, .poly, [4, 5]⟩] P).trace = (Server.newL .release 2 2 [⟨P, 0, .poly, [9, 1]⟩] P).trace ∧
    (Server.decodeL .debug srv (List.replicate 5 ⟨P, [p, p'], 0⟩) ev P).trace = [.access 0, .branch true, .access 0, .access 0] ∧
    (Server.decodeL .debug srv (List.replicate 4 ⟨P, [p, p'], 0⟩) ev P).trace = [.access 0, .branch false] := by
  obtain ⟨P, h⟩ := Ex.exists_params4
  obtain ⟨p, hp⟩ := c33_exists_poly h (i := 0) (by decide) (msgRing 8 [4, 2])
  obtain ⟨p', hp'⟩ := c33_exists_poly h (i := 0) (by decide) (msgRing 8 [5])
  have hs := Shape.of_polyAt h hp
  have hs' := Shape.of_polyAt h hp'
  obtain ⟨ev, hev⟩ := c99_exists_eval h (by norm_num) hs
  obtain ⟨ev', hev'⟩ := c99_exists_eval h (by norm_num) hs'
  obtain ⟨srv, s1, -⟩ := c43_new h .release 2 2 (db := [⟨P, 0, .poly, [4, 5]⟩]) (by simp) (by simp)
  obtain ⟨srv', s1', -⟩ := c43_new h .release 2 2 (db := [⟨P, 0, .poly, [9, 1]⟩]) (by simp) (by simp)
  refine ⟨P, p, p', ev, ev', srv, h, hev, hev', fun e => ?_, (c121_unpack h (by norm_num) hev hev' ⟨rfl, rfl, rfl, by simpa using hs⟩
    ⟨rfl, rfl, rfl, by simpa using ⟨hs', hs⟩⟩).1, c121_new 2 2 (.cons rfl .nil) s1 s1', ?_, ?_⟩
  · have h1 := hp
    rw [e] at h1
    refine Ex.not_cong_of_cf (by norm_num) (k := 0) ?_ ((Linear.ct_eq_iff h (i := 0) (x := ⟨P, [p', p'], 0⟩) ⟨rfl, rfl, .cons h1 (.cons h1 .nil)⟩
      ⟨rfl, rfl, .cons hp' (.cons hp' .nil)⟩).mp rfl).1
    rw [msgRing, msgRing, cf_ofCoeffs (by norm_num) _ (by norm_num), cf_ofCoeffs (by norm_num) _ (by norm_num)]
    decide
  · rw [(c121_as_is h (by norm_num) .debug srv ev (by simp)).2, if_pos (by simp [Ex.mods4])]
  · rw [(c121_as_is h (by norm_num) .debug srv ev (by simp)).2, if_neg (by simp [Ex.mods4])]

/-- `c43_select`, `c87_select` and `c102_select`: a server with four rows, encryptions of the unit vector `(1, 0)` and RGSW encryptions of `(0, 1)`. -/
example : ∃ P sk srv cts rgsws ct, IsParams 8 17 Ex.mods4 10 P ∧ IsKey P sk ∧ Server.new .release 2 2 (Ex.rows4 P) P = .ok srv ∧
    srv.select .debug P cts rgsws = .ok [ct] ∧
    CtEncodes P Ex.mods4 17 (keyRing 8 sk) (msgRing 8 [5, 6, 7])
      (2 * (8 * (2 * 17 * 10 + 2 * 17) * 17) + 1 * (17 * (2 * (switchNoise 8 Ex.mods4 0 * (2 * 10 + 2 * 10))))) ct := by
  obtain ⟨P, h⟩ := Ex.exists_params4
  obtain ⟨sk, -, hk, -⟩ := c30_generate h .release (by norm_num) (by norm_num) Ex.wordTape
  have ht : TapeAt Ex.mods4 0 fun _ _ => 0 := Ex.tape0 Ex.mods4_gt
  have hlen : ∀ p ∈ Ex.rows4 P, p.values.length ≤ 8 := by simp [Ex.rows4]
  have hval : ∀ p ∈ Ex.rows4 P, ∀ a ∈ p.values, a < 17 := by simp [Ex.rows4]
  obtain ⟨srv, s1, s2, s3, s4, s5, s6⟩ := c43_new h .release 2 2 (db := Ex.rows4 P) hlen (fun p hp a ha => (hval p hp a ha).trans (by norm_num))
  have hone : msgRing 8 [1] = 1 := by
    refine ext_cf (by norm_num) fun k hk => ?_
    rw [show (1 : Rg 8) = xx ^ 0 by simp, cf_xx_pow (by norm_num) (by norm_num), show cf (msgRing 8 [1]) k = _ from BfvP.cf_msgRing (K := 3) [1] hk]
    interval_cases k <;> simp
  have hzero : msgRing 8 [0] = 0 := by
    refine ext_cf (by norm_num) fun k hk => ?_
    rw [show cf (msgRing 8 [0]) k = _ from BfvP.cf_msgRing (K := 3) [0] hk, cf_zero (by norm_num)]
    interval_cases k <;> simp
  obtain ⟨x, f0, f1, -, x1, x2⟩ := c30_encrypt h hk .debug (by norm_num) (by norm_num) (pt := ⟨P, 0, .poly, [1]⟩) rfl rfl (by simp) (by simp) ht Ex.wordTape
  obtain ⟨y, g0, g1, -, y1, y2⟩ := c30_encrypt h hk .debug (by norm_num) (by norm_num) (pt := ⟨P, 0, .poly, [0]⟩) rfl rfl (by simp) (by simp) ht Ex.wordTape
  obtain ⟨u, -, u1⟩ := c39_encrypt h hk .debug (by norm_num) (by norm_num) (pt := ⟨P, 0, .poly, [1]⟩) rfl (show 0 < 4 by decide) (by simp) (by simp)
    (fun _ => ht) (fun _ => ht) (fun _ => Ex.wordTape) (fun _ => Ex.wordTape)
  obtain ⟨w, -, w1⟩ := c39_encrypt h hk .debug (by norm_num) (by norm_num) (pt := ⟨P, 0, .poly, [0]⟩) rfl (show 0 < 4 by decide) (by simp) (by simp)
    (fun _ => ht) (fun _ => ht) (fun _ => Ex.wordTape) (fun _ => Ex.wordTape)
  rw [hone] at x2 u1
  rw [hzero] at y2 w1
  have hrow : ∀ k, k < srv.dbScaled.length → ∃ p, srv.dbScaled[k]? = some p ∧ PolyAt P 0 (msgRing 8 (((Ex.rows4 P).map (·.values)).getD k [])) p ∧
      Bdd ((17 : Nat) : ℤ) (msgRing 8 (((Ex.rows4 P).map (·.values)).getD k [])) := by
    intro k hk
    have hk4 : k < 4 := by rw [s5] at hk; exact hk
    have hb : ∀ x ∈ ((Ex.rows4 P).map (·.values)).getD k [], x ≤ 17 := by
      interval_cases k <;> simp [Ex.rows4]
    have hb := BfvP.msgRing_bdd (K := 3) hb
    interval_cases k
    · obtain ⟨p, h1, h2⟩ := s6 0 _ rfl; exact ⟨p, h1, h2, hb⟩
    · obtain ⟨p, h1, h2⟩ := s6 1 _ rfl; exact ⟨p, h1, h2, hb⟩
    · obtain ⟨p, h1, h2⟩ := s6 2 _ rfl; exact ⟨p, h1, h2, hb⟩
    · obtain ⟨p, h1, h2⟩ := s6 3 _ rfl; exact ⟨p, h1, h2, hb⟩
  have hend : ∀ k, srv.dbScaled.length ≤ k → msgRing 8 (((Ex.rows4 P).map (·.values)).getD k []) = 0 := by
    intro k hk
    rw [s5] at hk
    rw [List.getD_eq_default _ _ (by simpa using hk)]
    refine ext_cf (by norm_num) fun k hk => ?_
    rw [show cf (msgRing 8 []) k = _ from BfvP.cf_msgRing (K := 3) [] hk, cf_zero (by norm_num)]
    simp
  have hc : ∀ k, k < srv.firstDim → ∃ ct, [x, y][k]? = some ct ∧
      CtEncodes P Ex.mods4 17 (keyRing 8 sk) (bit 8 k 0) (2 * (17 : Nat) * (10 : Nat) + 2 * (17 : Nat)) ct := by
    intro k hk
    rw [s2] at hk
    interval_cases k
    · exact ⟨x, rfl, f0, f1, x1, x2⟩
    · exact ⟨y, rfl, g0, g1, y1, y2⟩
  have hg : ∀ d k, d < [1].length → k < srv.dim → ∃ g, [w, u][d * srv.dim + k]? = some g ∧
      IsRgsw P Ex.mods4 0 (keyRing 8 sk) (bit 8 k ([1].getD d 0)) (2 * (10 : Nat)) (2 * (10 : Nat)) g := by
    intro d k hd hk
    obtain rfl : d = 0 := by simpa using hd
    rw [s3] at hk
    interval_cases k
    · exact ⟨w, by simp, w1⟩
    · exact ⟨u, by simp, u1⟩
  obtain ⟨ct, c1, c2⟩ := c43_select h .debug srv (i0 := 0) (is := [1]) (by rw [s2]; norm_num) (by rw [s3]; simp) (by rw [s3]; norm_num)
    (by rw [s5, s2, s3]; rfl) hrow hc (by rw [s3]; rfl) hg
  obtain ⟨out, o1, o2, o3⟩ := c87_select h .debug srv (i0 := 0) (is := [1]) (by rw [s2]; norm_num) (by rw [s3]; simp) (by rw [s3]; norm_num)
    hrow hend hc (by rw [s3]; rfl) hg
  obtain ⟨out', o1', o2', o3'⟩ := c102_select h .debug srv (by rw [s2]; norm_num) (by rw [s3]; norm_num) (fun k => if k = 0 then 1 else 0)
    [fun k => if k = 1 then 1 else 0] (A := 1) (by rw [s3]; decide) hrow hend (cts := [x, y])
    (fun k hk => by obtain ⟨ct, e1, e2⟩ := hc k hk; exact ⟨ct, e1, by unfold bit at e2; split_ifs at e2 with h0 <;> simpa [h0] using e2⟩)
    (rgsws := [w, u]) (by rw [s3]; rfl) (fun d a k ha hk => by
      obtain rfl : d = 0 := by
        have := (List.getElem?_eq_some_iff.mp ha).1
        simpa using this
      obtain rfl := Option.some.inj ha
      obtain ⟨g, e1, e2⟩ := hg 0 k (by simp) hk
      refine ⟨g, e1, ?_⟩
      unfold bit at e2
      simp only [List.getD_cons_zero] at e2
      split_ifs at e2 with h0 <;> simpa [h0] using e2)
  have e1 := o1.symm.trans c1
  have e2 := o1'.symm.trans c1
  refine ⟨P, sk, srv, [x, y], [w, u], ct, h, hk, s1, c1, ?_⟩
  rw [s2, s3] at c2
  exact c2

/-- `c117_run`, `c117_same` and `c117_laws`. -/
example : ∃ P x p z, IsParams 8 17 Ex.mods 10 P ∧ x.params = P ∧
    (((LinExpr.ct 0).mulPoly 0).add (.mulBig (.ct 1) 3)).run .debug (fun _ => x) (fun _ => p) = .ok z ∧
    ((LinExpr.mulBig (.ct 1) 3).add ((LinExpr.ct 0).mulPoly 0)).run .release (fun _ => x) (fun _ => p) = .ok z ∧
    (LinExpr.ct 0).run .debug (fun _ => x) (fun _ => p) ≠ (LinExpr.mulBig (.ct 1) 3).run .debug (fun _ => x) (fun _ => p) := by
  obtain ⟨P, h⟩ := Ex.exists_params
  obtain ⟨p, hp⟩ := c33_exists_poly h (i := 0) (by decide) (msgRing 8 [0, 1])
  obtain ⟨q, hq⟩ := c33_exists_poly h (i := 0) (by decide) (msgRing 8 [5])
  have hx : IsCt P 0 [msgRing 8 [5], msgRing 8 [0, 1]] ⟨P, [q, p], 0⟩ := ⟨rfl, rfl, .cons hq (.cons hp .nil)⟩
  obtain ⟨z, h1, -⟩ := c117_run h .debug (fun _ => hx) (fun _ => hp) (((LinExpr.ct 0).mulPoly 0).add (.mulBig (.ct 1) 3))
  refine ⟨P, ⟨P, [q, p], 0⟩, p, z, h, rfl, h1, ?_, fun e => ?_⟩
  · rw [← h1]
    exact (c117_laws h .release .debug (fun _ => hx) (fun _ => hp) _ _ (.ct 0) 0 0 0).1
  · have := ((c117_same h .debug .debug (fun _ => hx) (fun _ => hp) _ _).mp e).1
    refine Ex.not_cong_of_cf (by norm_num) (k := 0) ?_ this
    simp only [LinExpr.value]
    rw [Ex.levelQ_mods0, mul_comm (msgRing 8 [5]), show ((3 : Nat) : Rg 8) = ((3 : ℤ) : Rg 8) by norm_num, cf_int_mul (by norm_num), msgRing,
      cf_ofCoeffs (by norm_num) _ (by norm_num)]
    decide

/-- `c105_balanced_partial`: the entries themselves as representatives. -/
example : ∃ P sk ev xs srv v q0 qs ct pt, IsParams 8 17 Ex.mods4 10 P ∧ IsKey P sk ∧
    Server.new .release 2 2 ([⟨P, 0, .poly, [1, 2]⟩, ⟨P, 0, .poly, [3]⟩, ⟨P, 0, .poly, [1099511627781, 17]⟩, ⟨P, 0, .poly, [9, 16]⟩]) P = .ok srv ∧
    (Client.mk 2 2).encode .release [0, 1] 4 = .ok v ∧ IsQuery 8 P Ex.mods4 sk 2 v q0 qs ∧
    srv.decodeWith .debug xs (q0 :: qs) ev P = .ok [ct] ∧ sk.decrypt .debug ct = .ok pt ∧ pt.values = [6, 0, 0, 0, 0, 0, 0, 0] := by
  obtain ⟨P, h⟩ := Ex.exists_params4
  obtain ⟨sk, -, hk, hb⟩ := c30_generate h .release (by norm_num) (by norm_num) Ex.wordTape
  have ht : TapeAt Ex.mods4 0 fun _ _ => 0 := Ex.tape0 Ex.mods4_gt
  obtain ⟨ev, h1, h2⟩ := c41_build h hk .release (by norm_num) (by norm_num) (by decide) (by norm_num) (aTape := fun _ _ _ _ => 0)
    (fun _ _ => ht) (rng := fun _ _ i => i % 1000) (fun _ _ => Ex.wordTape) (a0 := fun _ _ _ => 0)
    (fun _ => ht) (a1 := fun _ _ _ => 0) (fun _ => ht) (r0 := fun _ i => i % 1000) (fun _ => Ex.wordTape)
    (r1 := fun _ i => i % 1000) (fun _ => Ex.wordTape)
  obtain ⟨xs, hx⟩ := Ex.monomials h (by decide)
  obtain ⟨db, hdb⟩ : ∃ db : List Plaintext, db = [⟨P, 0, .poly, [1, 2]⟩, ⟨P, 0, .poly, [3]⟩, ⟨P, 0, .poly, [1099511627781, 17]⟩,
    ⟨P, 0, .poly, [9, 16]⟩] := ⟨_, rfl⟩
  have hl4 : db.length = 4 := by rw [hdb]; rfl
  have hlen : ∀ p ∈ db, p.values.length ≤ 8 := by rw [hdb]; simp
  have hval : ∀ p ∈ db, ∀ a ∈ p.values, a ≤ 2 ^ 40 + 5 := by rw [hdb]; simp
  obtain ⟨srv, s1, s2, s3, s4, -⟩ := c43_new h .release 2 2 (db := db) hlen (fun p hp a ha => (hval p hp a ha).trans_lt (by norm_num))
  have hv : (Client.mk 2 2).encode .release [0, 1] 4 = .ok [1, 0, 0, 1] := by decide +kernel
  obtain ⟨q0, qs, hq⟩ := c44_query h hk (by norm_num) (by norm_num) (v := [1, 0, 0, 1]) (by norm_num) (by simp) 2
  have hdim : srv.dimensions .debug = .ok 2 :=
    c87_dimensions .debug srv (by rw [s2]; norm_num) (a := 1) (k := 1) (by norm_num) (by rw [s3]; rfl) (by rw [s2, s3, s4, hl4]; norm_num)
      (by rw [s2, s3, s4, hl4]; norm_num) (by rw [s4, hl4]; norm_num) (by norm_num)
  obtain ⟨-, cts, r2, r3, r4⟩ := c105_balanced_partial h hk .debug .debug (by norm_num) (by norm_num) (by decide) (by norm_num) hb (fun _ _ => ht)
    (fun _ _ => Ex.wordTape) (fun _ => ht) (fun _ => ht) (fun _ => Ex.wordTape) (fun _ => Ex.wordTape) h1 hx hlen
    (fun p hp a ha => (hval p hp a ha).trans_lt (by norm_num)) (b := fun k j => ((((db.map (·.values)).getD k []).getD j 0 : Nat) : ℤ)) (T := 2 ^ 40 + 5)
    (fun _ _ _ _ => rfl) (fun k j => by
      rw [abs_of_nonneg (Int.natCast_nonneg _)]
      by_cases hk : k < db.length
      · by_cases hj : j < (db[k].values).length
        · have := hval _ (List.getElem_mem hk) _ (List.getElem_mem hj)
          simp only [List.getD_eq_getElem?_getD, List.getElem?_map, List.getElem?_eq_getElem hk, Option.map_some, Option.getD_some,
            List.getElem?_eq_getElem hj]
          exact_mod_cast this
        · simp only [List.getD_eq_getElem?_getD, List.getElem?_map, List.getElem?_eq_getElem hk, Option.map_some, Option.getD_some,
            List.getElem?_eq_none (not_lt.mp hj), Option.getD_none]
          norm_num
      · simp [List.getElem?_eq_none (not_lt.mp hk)]) (fun k j hk => by simp [List.getElem?_eq_none hk]) s1 (i0 := 0) (is := [1])
    (by norm_num) (by norm_num) (by norm_num) (by rw [hl4]; exact hv) hq hdim (by decide) (by
      unfold answerNoise
      rw [show switchNoise 8 Ex.mods4 0 = 8 * (16777441 + 16777601 + 16777633 + 16777681) by decide +kernel,
        show levelQ Ex.mods4 0 = 16777441 * 16777601 * 16777633 * 16777681 by decide +kernel]
      norm_num)
  rw [hl4] at r3
  match cts, r3, r2, r4 with
  | [ct], _, r2, r4 =>
    obtain ⟨pt, p1, p2⟩ := r4 0 ct rfl
    refine ⟨P, sk, ev, xs, srv, _, q0, qs, ct, pt, h, hk, hdb ▸ s1, hv, hq, r2, p1, ?_⟩
    rw [p2, hdb]
    show (List.range 8).map (fun k => ((([1099511627781, 17] : List Nat).getD k 0 : ℤ) % 17).toNat) = _
    decide +kernel

end OnionPIR
