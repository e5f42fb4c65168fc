import Verif.Proofs.BfvExists
import Verif.Props.NttSampler
import Verif.Props.Contracts
import Verif.Spec.Accept
/- Exactly when `BfvParameters::new` succeeds. -/
namespace OnionPIR
open Rg Spec
namespace BfvParameters

/-- `BfvParameters::new` succeeds for every nonempty list of distinct NTT-friendly primes and NTT-friendly prime `t` for which
`t_invs_rests` can be computed, under the same conditions as in `new_ok_above`. -/
theorem new_ok_rests (pr : Profile) {K : Nat} (hK : 3 ≤ K) (hK2 : K ≤ 60) {t : Nat} (htp : t.Prime) (ht2 : t < 2 ^ 62)
    (htc : t % (2 * 2 ^ K) = 1) {moduli : List Nat} (hne : moduli ≠ []) (hnd : moduli.Nodup)
    (hp : ∀ q ∈ moduli, q.Prime ∧ q < 2 ^ 62 ∧ q % (2 * 2 ^ K) = 1) {tInvs : List Nat} (htI : mapR (tInvRest pr t) moduli = .ok tInvs) (hn : moduli.length ≤ 2 ^ 30)
    {ps : List Nat} (hps : ps.Nodup) (hps2 : ∀ p ∈ ps, p.Prime ∧ 2 ^ 61 ≤ p ∧ p < 2 ^ 62 ∧ p % (2 * 2 ^ K) = 1 ∧ p ∉ moduli)
    (hpl : moduli.length + 1 ≤ ps.length) {sample : Nat → Nat → Nat} (hs : ∀ p i, 0 < p → sample p i < p)
    {B : Nat} (hB : ∀ p ∈ ps, B ≤ p)
    (hgood : ∀ q, q.Prime → q % (2 * 2 ^ K) = 1 → q = t ∨ q ∈ moduli ∨ (2 ^ 61 ≤ q ∧ q < 2 ^ 62 ∧ B ≤ q ∧ q ∉ moduli) →
      ∃ i, i < 100 ∧ sample q i ^ ((q - 1) / 2) % q = q - 1)
    (variance : Nat) (bd : BitDecomposition) :
    ∃ P, new pr sample (2 ^ K) t moduli variance bd = .ok P := by
  have hKb : 2 ^ K ≤ 2 ^ 60 := Nat.pow_le_pow_right (by norm_num) hK2
  have hctx : ∀ l : List Nat, l ≠ [] → l.Nodup → (∀ q ∈ l, q.Prime ∧ q < 2 ^ 62 ∧ q % (2 * 2 ^ K) = 1) →
      (∀ q ∈ l, q ∈ moduli ∨ (2 ^ 61 ≤ q ∧ q < 2 ^ 62 ∧ B ≤ q ∧ q ∉ moduli)) →
      ∃ c, RqContext.new pr sample l (2 ^ K) bd = .ok c ∧ c.WF K ∧ c.moduli64 = l := by
    intro l h1 h2 h3 h4
    obtain ⟨c, hc, -⟩ := c20_context_exists pr hK (by omega) h1 h2 h3 hs (fun q hq => hgood q (h3 q hq).1 (h3 q hq).2.2 (Or.inr (h4 q hq))) bd
    obtain ⟨K', e, w1, w2⟩ := RqContext.new_wf hs (show 2 ^ K < 2 ^ 64 by omega) hc
    have := Nat.pow_right_injective (le_refl 2) e
    subst this
    exact ⟨c, hc, w1, w2⟩
  obtain ⟨ext, hext, hextB⟩ := extLoop_ok pr (degree := 2 ^ K) (moduli := moduli) Nat.one_le_two_pow (by omega) (2 ^ 62) [] (2 ^ 62)
    (by norm_num) (le_refl _) (le_refl _) (by simp) hps hps2 (by simpa using hpl) (by simp) hB (by simp)
  obtain ⟨e1, e2, e3⟩ := extLoop_inv Nat.one_le_two_pow (by omega) _ _ _ (by norm_num) (le_refl _) hext List.nodup_nil (by simp)
  have hlenI := (mapR_inv htI).1
  have hl0 : 0 < moduli.length := List.length_pos_iff.mpr hne
  obtain ⟨ptCtx, hpt, hptw, -⟩ := hctx [moduli[0]] (by simp) (by simp) (fun q hq => by
    rw [List.mem_singleton] at hq; subst hq; exact hp _ (List.getElem_mem _)) (fun q hq => by
    rw [List.mem_singleton] at hq; subst hq; exact Or.inl (List.getElem_mem _))
  obtain ⟨levels, hlev⟩ := mapR_exists (f := level pr sample (2 ^ K) t moduli ext tInvs bd ptCtx)
    (l := List.range moduli.length) (by
      intro i hi
      have hi := List.mem_range.mp hi
      unfold level
      rw [takeR_ok (by omega), res_ok_bind]
      set ms := moduli.take (moduli.length - i) with hms
      have hmsl : ms.length = moduli.length - i := by rw [hms, List.length_take]; omega
      have hms0 : ms ≠ [] := by rw [← List.length_pos_iff]; omega
      have hmem : ∀ q ∈ ms, q ∈ moduli := fun q hq => List.mem_of_mem_take hq
      have hnd' : ms.Nodup := List.Nodup.sublist (List.take_sublist _ _) hnd
      obtain ⟨qCtx, hq, hw, hm⟩ := hctx ms hms0 hnd' (fun q hq => hp q (hmem q hq)) (fun q hq => Or.inl (hmem q hq))
      obtain ⟨v, hv, -⟩ := RnsContext.lift_long hw.core.rns (r := tInvs) (by rw [← hw.core.m64, hm, hlenI]; omega)
      have hmod : qCtx.rns.modulus = qCtx.Q := hw.Q_eq
      have hbd : ∀ q ∈ ms, 2 ≤ q ∧ q < 2 ^ 62 := fun q hq => hw.bound (hm ▸ hq)
      rw [hq, res_ok_bind, hmod, modR_ok htp.pos.ne', res_ok_bind,
        RnsScaler.toU64R_ok (by have := Nat.mod_lt qCtx.Q htp.pos; omega), res_ok_bind, hv,
        res_ok_bind, Poly.tryFromBigint_ok hw (by simp; exact Nat.one_le_two_pow), res_ok_bind, Poly.toNtt_enc hw, res_ok_bind]
      have hsf : ∀ a b, b ≠ 0 → ScalingFactor.new a b = .ok ⟨a, b, decide (a = b)⟩ := fun a b h => by
        unfold ScalingFactor.new; rw [rassert_ok h, res_ok_bind]
      rw [hsf _ _ hw.Q_pos.ne', res_ok_bind]
      obtain ⟨sc, hsc, -⟩ := RqScaler.new_ok hw hptw pr (by rw [hm]; omega) (sf := ⟨t, qCtx.Q, decide (t = qCtx.Q)⟩) hw.Q_pos
      rw [hsc, res_ok_bind]
      have hcnt := count_ok pr ms hbd (by omega)
      simp only [bind_eq_ok] at hcnt
      obtain ⟨sizes, c1, sum, c2, bits, c3, c4⟩ := hcnt
      rw [c1, res_ok_bind, c2, res_ok_bind, c3, res_ok_bind, c4, res_ok_bind]
      have hec := extraCount_le ms hbd
      rw [takeR_ok (by omega), res_ok_bind]
      obtain ⟨eCtx, he, hew, hem⟩ := hctx (ms ++ ext.take (extraCount ms)) (by simp [hms0]) (by
          rw [List.nodup_append]
          refine ⟨hnd', List.Nodup.sublist (List.take_sublist _ _) e2, ?_⟩
          intro a ha b hb hab
          subst hab
          exact (e3 a (List.mem_of_mem_take hb)).2.2.2.2 (hmem a ha)) (by
          intro q hq
          rw [List.mem_append] at hq
          rcases hq with hq | hq
          · exact hp q (hmem q hq)
          · obtain ⟨a1, a2, a3, a4, a5⟩ := e3 q (List.mem_of_mem_take hq)
            exact ⟨a1, a3, a4⟩) (by
          intro q hq
          rw [List.mem_append] at hq
          rcases hq with hq | hq
          · exact Or.inl (hmem q hq)
          · obtain ⟨a1, a2, a3, a4, a5⟩ := e3 q (List.mem_of_mem_take hq)
            exact Or.inr ⟨a2, a3, hextB q (List.mem_of_mem_take hq), a5⟩)
      have hel : eCtx.moduli64.length < 2 ^ 62 := by
        rw [hem, List.length_append, List.length_take (i := extraCount ms)]
        have := Nat.min_le_left (extraCount ms) ext.length
        omega
      obtain ⟨u, hu, -⟩ := RqScaler.new_ok hw hew pr (by rw [hm]; omega) (sf := ⟨1, 1, decide (1 = 1)⟩) (by norm_num)
      obtain ⟨d, hd, -⟩ := RqScaler.new_ok hew hw pr hel (sf := ⟨t, qCtx.Q, decide (t = qCtx.Q)⟩) hw.Q_pos
      rw [he, res_ok_bind, hsf 1 1 (by norm_num), res_ok_bind, res_ok_bind]
      unfold MultiplicationParameters.new
      rw [hu, res_ok_bind, hd, res_ok_bind, res_ok_bind]
      exact ⟨_, rfl⟩)
  obtain ⟨map, hmap, -⟩ := indexMap_ok pr (show 2 ≤ K by omega) hK2
  obtain ⟨tm, htm, rfl, htw⟩ := Modulus.new_ok htp.two_le ht2
  obtain ⟨op, hop⟩ := ntt_new_succeeds htw pr htp hK htc (fun i => hs tm.p i htp.pos) (hgood _ htp htc (Or.inl rfl))
  unfold new
  rw [hext, res_ok_bind, htI, res_ok_bind, idx_ok hl0, res_ok_bind, hpt, res_ok_bind, hlev, res_ok_bind, hmap, res_ok_bind, htm,
    res_ok_bind, hop, res_ok_bind]
  exact ⟨_, rfl⟩

theorem tInvRest_release {t q : Nat} (ht : t < 2 ^ 62) (h2 : 2 ≤ q) (hq : q < 2 ^ 62) : ∃ r, tInvRest .release t q = .ok r := by
  obtain ⟨m, hm, rfl, hw⟩ := Modulus.new_ok (p := q) h2 hq
  unfold tInvRest
  rw [hm, res_ok_bind, c91_neg_value hm (by omega), res_ok_bind]
  obtain ⟨v, hv, -⟩ := c91_inv_release hm (a := if t = 0 then 0 else if t ≤ m.p then m.p - t else if t ≤ 2 ^ 63 then 2 ^ 64 + m.p - t else 2 ^ 64 - t)
    (by split_ifs <;> omega)
  exact ⟨v, hv⟩

theorem tInvRest_debug {t q r : Nat} (h : tInvRest .debug t q = .ok r) : t < q := by
  unfold tInvRest at h
  simp only [bind_eq_ok] at h
  obtain ⟨m, hm, n, hn, -⟩ := h
  by_contra hlt
  rw [(c91_debug hm t 0).2.1 hlt] at hn
  cases hn

/-- What the constructor establishes about its arguments, in either build. -/
theorem new_acceptable {pr : Profile} {sample : Nat → Nat → Nat} (hs : ∀ p i, 0 < p → sample p i < p) {N : Nat} (hN : N < 2 ^ 64)
    {t : Nat} {l : List Nat} {variance : Nat} {bd : BitDecomposition} {P : BfvParameters}
    (h : new pr sample N t l variance bd = .ok P) : Acceptable N t l := by
  unfold new at h
  simp only [bind_eq_ok] at h
  obtain ⟨ext, hext, tInvs, htInvs, q0, hq0, ptCtx, hpt, levels, hlev, map, hmap, tm, htm, op, hop, h⟩ := h
  obtain ⟨⟨K, hK, rfl⟩, -, -, hp0⟩ := (c86_context_iff pr hN hs bd).mp ⟨_, hpt⟩
  obtain ⟨h1, h2, h3, -⟩ := hp0 q0 (by simp)
  have hN2 : 2 * 2 ^ K < 2 ^ 62 := by
    by_contra hc
    rw [Nat.mod_eq_of_lt (by omega)] at h3
    exact h1.one_lt.ne' h3
  have hl0 : l ≠ [] := by rintro rfl; simp [idx] at hq0
  have hlen := List.length_pos_iff.mpr hl0
  obtain ⟨L, hL⟩ := NttSampler.mapR_mem hlev (a := 0) (by simpa using hlen)
  unfold level at hL
  rw [takeR_ok (by omega), res_ok_bind, bind_eq_ok] at hL
  obtain ⟨qCtx, hq, -⟩ := hL
  rw [Nat.sub_zero, List.take_length] at hq
  obtain ⟨-, hne, hnd, hall⟩ := (c86_context_iff pr hN hs bd).mp ⟨_, hq⟩
  obtain ⟨e1, e2, e3⟩ := extLoop_inv Nat.one_le_two_pow (by omega) _ _ _ (by norm_num) (le_refl _) hext List.nodup_nil (by simp)
  obtain ⟨ht2, htl, rfl, htw⟩ := Modulus.new_inv htm
  unfold NttOperator.new at hop
  simp only [bind_eq_ok] at hop
  obtain ⟨sb, hsb, _, has, -⟩ := hop
  rw [rassert_eq_ok] at has
  subst has
  obtain ⟨K', hK3, -, e, hprime, hmod⟩ := NttOperator.supportsNtt_inv hN hsb
  rw [← e] at hmod
  exact ⟨⟨K, hK, rfl⟩, ⟨hprime, htl, hmod⟩, hne, hnd, fun q hq => ⟨(hall q hq).1, (hall q hq).2.1, (hall q hq).2.2.1⟩,
    ext, e2, e1, fun p hp => ⟨⟨(e3 p hp).1, (e3 p hp).2.2.1, (e3 p hp).2.2.2.1⟩, (e3 p hp).2.1, (e3 p hp).2.2.2.2⟩⟩

/-- Acceptable arguments are accepted, if the inverses of `-t` can be computed. -/
theorem acceptable_ok {pr : Profile} {sample : Nat → Nat → Nat} {N t : Nat} {l : List Nat} (h : Acceptable N t l) (hs : GoodSampler N sample)
    (hl : l.length ≤ 2 ^ 30) (ht : ∀ q ∈ l, ∃ r, tInvRest pr t q = .ok r) (variance : Nat) (bd : BitDecomposition) :
    ∃ P, new pr sample N t l variance bd = .ok P := by
  obtain ⟨⟨K, hK, rfl⟩, ⟨t1, t2, t3⟩, hne, hnd, hm, ps, p1, p2, p3⟩ := h
  have hK2 : K ≤ 60 := by
    by_contra hc
    have : 2 ^ 61 ≤ 2 ^ K := Nat.pow_le_pow_right (by norm_num) (by omega)
    rw [Nat.mod_eq_of_lt (by omega)] at t3
    exact t1.one_lt.ne' t3
  obtain ⟨tInvs, htI⟩ := mapR_exists ht
  exact new_ok_rests pr hK hK2 t1 t2 t3 hne hnd hm htI hl p1 (fun p hp => ⟨(p3 p hp).1.1, (p3 p hp).2.1, (p3 p hp).1.2.1, (p3 p hp).1.2.2, (p3 p hp).2.2⟩)
    (by omega) hs.1 (B := 0) (fun _ _ => Nat.zero_le _)
    (fun q h1 h2 h3 => hs.2 q ⟨h1, by
      rcases h3 with rfl | h3 | h3
      · exact t2
      · exact (hm q h3).2.1
      · exact h3.2.1, h2⟩) variance bd

end BfvParameters
end OnionPIR
