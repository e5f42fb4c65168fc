import Verif.Proofs.BfvEncode
import Verif.Props.Rq
/- When `BfvParameters::new` succeeds. -/
namespace OnionPIR
open Rg
namespace BfvParameters

theorem mapR_exists {α β : Type _} {f : α → Res β} {l : List α} (h : ∀ a ∈ l, ∃ b, f a = .ok b) : ∃ r, mapR f l = .ok r := by
  induction l with
  | nil => exact ⟨[], rfl⟩
  | cons a as ih =>
    obtain ⟨b, hb⟩ := h a (by simp)
    obtain ⟨r, hr⟩ := ih (fun x hx => h x (by simp [hx]))
    exact ⟨b :: r, by simp only [mapR, hb, hr, res_ok_bind]⟩

theorem tInvRest_ok (pr : Profile) {t q : Nat} (ht : 0 < t) (htq : t < q) (hq : q < 2 ^ 62) :
    tInvRest pr t q = .ok ((q - t) ^ (q - 2) % q) := by
  obtain ⟨m, hm, rfl, hw⟩ := Modulus.new_ok (p := q) (by omega) hq
  unfold tInvRest
  have h1 : (m.p - t) % m.p = m.p - t := Nat.mod_eq_of_lt (by omega)
  rw [hm, res_ok_bind, Modulus.neg_ok hw pr htq, res_ok_bind, h1, Modulus.inv_ok hw pr (by omega) (by omega)]

/-- `BfvParameters::new` succeeds for every nonempty list of distinct NTT-friendly primes above an NTT-friendly prime `t`, if
there are enough further 62-bit NTT-friendly primes and the sampler finds quadratic non-residues, modulo `t`, the given moduli and the further
primes from the bound `B` on, above which there are enough. -/
theorem new_ok_above (pr : Profile) {K : Nat} (hK : 3 ≤ K) (hK2 : K ≤ 60) {t : Nat} (htp : t.Prime) (ht2 : t < 2 ^ 62)
    (htc : t % (2 * 2 ^ K) = 1) {moduli : List Nat} (hne : moduli ≠ []) (hnd : moduli.Nodup)
    (hp : ∀ q ∈ moduli, q.Prime ∧ q < 2 ^ 62 ∧ q % (2 * 2 ^ K) = 1) (htq : ∀ q ∈ moduli, t < q) (hn : moduli.length ≤ 2 ^ 30)
    {ps : List Nat} (hps : ps.Nodup) (hps2 : ∀ p ∈ ps, p.Prime ∧ 2 ^ 61 ≤ p ∧ p < 2 ^ 62 ∧ p % (2 * 2 ^ K) = 1 ∧ p ∉ moduli)
    (hpl : moduli.length + 1 ≤ ps.length) {sample : Nat → Nat → Nat} (hs : ∀ p i, 0 < p → sample p i < p)
    {B : Nat} (hB : ∀ p ∈ ps, B ≤ p)
    (hgood : ∀ q, q.Prime → q % (2 * 2 ^ K) = 1 → q = t ∨ q ∈ moduli ∨ (2 ^ 61 ≤ q ∧ q < 2 ^ 62 ∧ B ≤ q ∧ q ∉ moduli) →
      ∃ i, i < 100 ∧ sample q i ^ ((q - 1) / 2) % q = q - 1)
    (variance : Nat) (bd : BitDecomposition) :
    ∃ P, new pr sample (2 ^ K) t moduli variance bd = .ok P := by
  have hKb : 2 ^ K ≤ 2 ^ 60 := Nat.pow_le_pow_right (by norm_num) hK2
  have hctx : ∀ l : List Nat, l ≠ [] → l.Nodup → (∀ q ∈ l, q.Prime ∧ q < 2 ^ 62 ∧ q % (2 * 2 ^ K) = 1) →
      (∀ q ∈ l, q ∈ moduli ∨ (2 ^ 61 ≤ q ∧ q < 2 ^ 62 ∧ B ≤ q ∧ q ∉ moduli)) →
      ∃ c, RqContext.new pr sample l (2 ^ K) bd = .ok c ∧ c.WF K ∧ c.moduli64 = l := by
    intro l h1 h2 h3 h4
    obtain ⟨c, hc, -⟩ := c20_context_exists pr hK (by omega) h1 h2 h3 hs (fun q hq => hgood q (h3 q hq).1 (h3 q hq).2.2 (Or.inr (h4 q hq))) bd
    obtain ⟨K', e, w1, w2⟩ := RqContext.new_wf hs (show 2 ^ K < 2 ^ 64 by omega) hc
    have := Nat.pow_right_injective (le_refl 2) e
    subst this
    exact ⟨c, hc, w1, w2⟩
  obtain ⟨ext, hext, hextB⟩ := extLoop_ok pr (degree := 2 ^ K) (moduli := moduli) Nat.one_le_two_pow (by omega) (2 ^ 62) [] (2 ^ 62)
    (by norm_num) (le_refl _) (le_refl _) (by simp) hps hps2 (by simpa using hpl) (by simp) hB (by simp)
  obtain ⟨e1, e2, e3⟩ := extLoop_inv Nat.one_le_two_pow (by omega) _ _ _ (by norm_num) (le_refl _) hext List.nodup_nil (by simp)
  have htI : mapR (tInvRest pr t) moduli = .ok (moduli.map (fun q => (q - t) ^ (q - 2) % q)) :=
    mapR_ok fun q hq => tInvRest_ok pr htp.pos (htq q hq) (hp q hq).2.1
  have hl0 : 0 < moduli.length := List.length_pos_iff.mpr hne
  obtain ⟨ptCtx, hpt, hptw, -⟩ := hctx [moduli[0]] (by simp) (by simp) (fun q hq => by
    rw [List.mem_singleton] at hq; subst hq; exact hp _ (List.getElem_mem _)) (fun q hq => by
    rw [List.mem_singleton] at hq; subst hq; exact Or.inl (List.getElem_mem _))
  obtain ⟨levels, hlev⟩ := mapR_exists (f := level pr sample (2 ^ K) t moduli ext (moduli.map (fun q => (q - t) ^ (q - 2) % q)) bd ptCtx)
    (l := List.range moduli.length) (by
      intro i hi
      have hi := List.mem_range.mp hi
      unfold level
      rw [takeR_ok (by omega), res_ok_bind]
      set ms := moduli.take (moduli.length - i) with hms
      have hmsl : ms.length = moduli.length - i := by rw [hms, List.length_take]; omega
      have hms0 : ms ≠ [] := by rw [← List.length_pos_iff]; omega
      have hmem : ∀ q ∈ ms, q ∈ moduli := fun q hq => List.mem_of_mem_take hq
      have hnd' : ms.Nodup := List.Nodup.sublist (List.take_sublist _ _) hnd
      obtain ⟨qCtx, hq, hw, hm⟩ := hctx ms hms0 hnd' (fun q hq => hp q (hmem q hq)) (fun q hq => Or.inl (hmem q hq))
      obtain ⟨v, hv, hvd⟩ := delta_spec hw htp.pos hm htq
      have hmod : qCtx.rns.modulus = qCtx.Q := hw.Q_eq
      have hbd : ∀ q ∈ ms, 2 ≤ q ∧ q < 2 ^ 62 := fun q hq => hw.bound (hm ▸ hq)
      rw [hq, res_ok_bind, hmod, modR_ok htp.pos.ne', res_ok_bind,
        RnsScaler.toU64R_ok (by have := Nat.mod_lt qCtx.Q htp.pos; omega), res_ok_bind, hv,
        res_ok_bind, Poly.tryFromBigint_ok hw (by simp; exact Nat.one_le_two_pow), res_ok_bind, Poly.toNtt_enc hw, res_ok_bind]
      have hsf : ∀ a b, b ≠ 0 → ScalingFactor.new a b = .ok ⟨a, b, decide (a = b)⟩ := fun a b h => by
        unfold ScalingFactor.new; rw [rassert_ok h, res_ok_bind]
      rw [hsf _ _ hw.Q_pos.ne', res_ok_bind]
      obtain ⟨sc, hsc, -⟩ := RqScaler.new_ok hw hptw pr (by rw [hm]; omega) (sf := ⟨t, qCtx.Q, decide (t = qCtx.Q)⟩) hw.Q_pos
      rw [hsc, res_ok_bind]
      have hcnt := count_ok pr ms hbd (by omega)
      simp only [bind_eq_ok] at hcnt
      obtain ⟨sizes, c1, sum, c2, bits, c3, c4⟩ := hcnt
      rw [c1, res_ok_bind, c2, res_ok_bind, c3, res_ok_bind, c4, res_ok_bind]
      have hec := extraCount_le ms hbd
      rw [takeR_ok (by omega), res_ok_bind]
      obtain ⟨eCtx, he, hew, hem⟩ := hctx (ms ++ ext.take (extraCount ms)) (by simp [hms0]) (by
          rw [List.nodup_append]
          refine ⟨hnd', List.Nodup.sublist (List.take_sublist _ _) e2, ?_⟩
          intro a ha b hb hab
          subst hab
          exact (e3 a (List.mem_of_mem_take hb)).2.2.2.2 (hmem a ha)) (by
          intro q hq
          rw [List.mem_append] at hq
          rcases hq with hq | hq
          · exact hp q (hmem q hq)
          · obtain ⟨a1, a2, a3, a4, a5⟩ := e3 q (List.mem_of_mem_take hq)
            exact ⟨a1, a3, a4⟩) (by
          intro q hq
          rw [List.mem_append] at hq
          rcases hq with hq | hq
          · exact Or.inl (hmem q hq)
          · obtain ⟨a1, a2, a3, a4, a5⟩ := e3 q (List.mem_of_mem_take hq)
            exact Or.inr ⟨a2, a3, hextB q (List.mem_of_mem_take hq), a5⟩)
      have hel : eCtx.moduli64.length < 2 ^ 62 := by
        rw [hem, List.length_append, List.length_take (i := extraCount ms)]
        have := Nat.min_le_left (extraCount ms) ext.length
        omega
      obtain ⟨u, hu, -⟩ := RqScaler.new_ok hw hew pr (by rw [hm]; omega) (sf := ⟨1, 1, decide (1 = 1)⟩) (by norm_num)
      obtain ⟨d, hd, -⟩ := RqScaler.new_ok hew hw pr hel (sf := ⟨t, qCtx.Q, decide (t = qCtx.Q)⟩) hw.Q_pos
      rw [he, res_ok_bind, hsf 1 1 (by norm_num), res_ok_bind, res_ok_bind]
      unfold MultiplicationParameters.new
      rw [hu, res_ok_bind, hd, res_ok_bind, res_ok_bind]
      exact ⟨_, rfl⟩)
  obtain ⟨map, hmap, -⟩ := indexMap_ok pr (show 2 ≤ K by omega) hK2
  obtain ⟨tm, htm, rfl, htw⟩ := Modulus.new_ok htp.two_le ht2
  obtain ⟨op, hop⟩ := ntt_new_succeeds htw pr htp hK htc (fun i => hs tm.p i htp.pos) (hgood _ htp htc (Or.inl rfl))
  unfold new
  rw [hext, res_ok_bind, htI, res_ok_bind, idx_ok hl0, res_ok_bind, hpt, res_ok_bind, hlev, res_ok_bind, hmap, res_ok_bind, htm,
    res_ok_bind, hop, res_ok_bind]
  exact ⟨_, rfl⟩

/-- The same, if the sampler finds non-residues modulo every NTT-friendly prime. -/
theorem new_ok (pr : Profile) {K : Nat} (hK : 3 ≤ K) (hK2 : K ≤ 60) {t : Nat} (htp : t.Prime) (ht2 : t < 2 ^ 62)
    (htc : t % (2 * 2 ^ K) = 1) {moduli : List Nat} (hne : moduli ≠ []) (hnd : moduli.Nodup)
    (hp : ∀ q ∈ moduli, q.Prime ∧ q < 2 ^ 62 ∧ q % (2 * 2 ^ K) = 1) (htq : ∀ q ∈ moduli, t < q) (hn : moduli.length ≤ 2 ^ 30)
    {ps : List Nat} (hps : ps.Nodup) (hps2 : ∀ p ∈ ps, p.Prime ∧ 2 ^ 61 ≤ p ∧ p < 2 ^ 62 ∧ p % (2 * 2 ^ K) = 1 ∧ p ∉ moduli)
    (hpl : moduli.length + 1 ≤ ps.length) {sample : Nat → Nat → Nat} (hs : ∀ p i, 0 < p → sample p i < p)
    (hgood : ∀ q, q.Prime → q % (2 * 2 ^ K) = 1 → ∃ i, i < 100 ∧ sample q i ^ ((q - 1) / 2) % q = q - 1)
    (variance : Nat) (bd : BitDecomposition) :
    ∃ P, new pr sample (2 ^ K) t moduli variance bd = .ok P :=
  new_ok_above pr hK hK2 htp ht2 htc hne hnd hp htq hn hps hps2 hpl hs (B := 0) (fun _ _ => Nat.zero_le _) (fun q h1 h2 _ => hgood q h1 h2)
    variance bd

/-! ### `ctx_level` -/

theorem ctxLevelLoop_eq {c : RqContext} {l : List RqContext} {i : Nat} (s : Nat) (h : l[i]? = some c)
    (hlt : ∀ (j : Nat) (d : RqContext), j < i → l[j]? = some d → d ≠ c) : ctxLevelLoop c l s = some (s + i) := by
  induction l generalizing i s with
  | nil => simp at h
  | cons d ds ih =>
    unfold ctxLevelLoop
    cases i with
    | zero => simp at h; subst h; simp
    | succ i =>
      rw [if_neg (fun e => hlt 0 d (by omega) (by simp) e.symm), ih (s + 1) (by simpa using h)
        (fun j d' hj hd => hlt (j + 1) d' (by omega) (by simpa using hd))]
      congr 1; omega

theorem ctxLevel_at {K : Nat} {P : BfvParameters} {ext : List Nat} (hP : P.WF K ext) {i : Nat} {L : BfvLevel} (hL : P.At K ext i L) :
    P.ctxLevel L.qCtx = some i := by
  unfold ctxLevel
  rw [ctxLevelLoop_eq 0 hL.q, Nat.zero_add]
  intro j d hj hd he
  have hi := hL.lt
  obtain ⟨L', hL'⟩ := hP.levels j (by omega)
  rw [hL'.q] at hd
  have h1 := congrArg List.length hL'.wf.mods
  have h2 := congrArg List.length hL.wf.mods
  rw [Option.some.inj hd, he, h2] at h1
  simp at h1
  omega

end BfvParameters
end OnionPIR
