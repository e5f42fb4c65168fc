import Verif.Model.Bfv
import Verif.Proofs.RqScaler
/- What `BfvParameters::new` establishes. -/
namespace OnionPIR
open Rg

/-! ### Lists -/

theorem mapR_inv {α β : Type _} {f : α → Res β} {l : List α} {r : List β} (h : mapR f l = .ok r) :
    r.length = l.length ∧ ∀ (i : Nat) (a : α), l[i]? = some a → ∃ b, r[i]? = some b ∧ f a = .ok b := by
  induction l generalizing r with
  | nil => simp [mapR] at h; subst h; simp
  | cons a as ih =>
    simp only [mapR, bind_eq_ok] at h
    obtain ⟨b, hb, bs, hbs, h⟩ := h
    cases h
    obtain ⟨h1, h2⟩ := ih hbs
    refine ⟨by simp [h1], ?_⟩
    intro i x hx
    cases i with
    | zero => simp at hx; subst hx; exact ⟨b, by simp, hb⟩
    | succ i => simpa using h2 i x (by simpa using hx)

theorem takeR_ok {α : Type _} {l : List α} {k : Nat} (h : k ≤ l.length) : takeR l k = .ok (l.take k) := by
  unfold takeR; rw [if_pos h]

theorem takeR_inv {α : Type _} {l r : List α} {k : Nat} (h : takeR l k = .ok r) : k ≤ l.length ∧ r = l.take k := by
  unfold takeR at h
  split_ifs at h with hk
  exact ⟨hk, (Except.ok.inj h).symm⟩

theorem setR_ok {α : Type _} {l : List α} {i : Nat} (h : i < l.length) (x : α) : setR l i x = .ok (l.set i x) := by
  unfold setR; rw [if_pos h]

theorem idx_of {α : Type _} {l : List α} {i : Nat} {x : α} (h : l[i]? = some x) : idx l i = .ok x := by
  unfold idx; rw [h]

namespace RnsContext

theorem liftSum_take (xs gs : List Nat) (res : Nat) : liftSum xs gs res = liftSum (xs.take gs.length) gs res := by
  induction xs generalizing gs res with
  | nil => simp
  | cons x xs ih =>
    cases gs with
    | nil => simp [liftSum]
    | cons g gs => simp only [List.length_cons, List.take_succ_cons, liftSum]; exact ih gs _

/-- Lifting at least as many residues as there are moduli. -/
theorem lift_long {c : RnsContext} (h : c.WF) {r : List Nat} (hr : c.moduliU64.length ≤ r.length) :
    ∃ v, c.lift r = .ok v ∧ ∀ j, j < c.moduliU64.length → v % c.moduliU64.getD j 1 = r.getD j 0 % c.moduliU64.getD j 1 := by
  have hg : c.garner.length = c.moduliU64.length := h.g_len
  have h1 : c.lift r = c.lift (r.take c.moduliU64.length) := by unfold lift; rw [liftSum_take, hg]
  have h2 : (r.take c.moduliU64.length).length = c.moduliU64.length := by simp; omega
  rw [h1, lift_ok h h2]
  refine ⟨_, rfl, fun j hj => ?_⟩
  rw [Nat.mod_mod_of_dvd _ (h.q_dvd hj), garner_sum_mod h _ hj]
  simp [List.getD, List.getElem?_take, hj]

end RnsContext

namespace BfvParameters

/-! ### The auxiliary primes -/

theorem extLoop_inv {pr : Profile} {degree : Nat} {moduli : List Nat} (hd : 1 ≤ degree) (hd2 : 2 * degree < 2 ^ 64) (fuel : Nat)
    (acc : List Nat) (ub : Nat) (hu1 : 1 ≤ ub) (hu2 : ub ≤ 2 ^ 62) {r : List Nat}
    (h : extLoop pr degree moduli fuel acc ub = .ok r) (hn : acc.Nodup)
    (ha : ∀ p ∈ acc, p.Prime ∧ 2 ^ 61 ≤ p ∧ p < 2 ^ 62 ∧ p % (2 * degree) = 1 ∧ p ∉ moduli) :
    r.length = moduli.length + 1 ∧ r.Nodup ∧
      ∀ p ∈ r, p.Prime ∧ 2 ^ 61 ≤ p ∧ p < 2 ^ 62 ∧ p % (2 * degree) = 1 ∧ p ∉ moduli := by
  induction fuel generalizing acc ub with
  | zero =>
    simp only [extLoop] at h
    split_ifs at h with hl
    cases h
    exact ⟨hl, hn, ha⟩
  | succ fuel ih =>
    simp only [extLoop] at h
    split_ifs at h with hl
    · cases h
      exact ⟨hl, hn, ha⟩
    · obtain ⟨o, ho, hs⟩ := generatePrime_ok pr (nb := 62) (modulo := 2 * degree) (ub := ub) (by norm_num) (by norm_num) (by omega) hu1 hu2
      rw [mulW_ok hd2, res_ok_bind, ho, res_ok_bind] at h
      cases o with
      | none => simp [unwrapR] at h
      | some p =>
        rw [show unwrapR (some p) = .ok p from rfl, res_ok_bind] at h
        obtain ⟨⟨p1, p2, p3, p4, p5⟩, -⟩ := (hs p).mp rfl
        have := p1.two_le
        split_ifs at h with hc
        · exact ih acc p (by omega) (by omega) h hn ha
        · simp only [Bool.or_eq_true, List.contains_iff_mem, not_or] at hc
          refine ih _ p (by omega) (by omega) h ?_ ?_
          · rw [List.nodup_append]
            refine ⟨hn, by simp, ?_⟩
            intro a ha' b hb
            simp only [List.mem_singleton] at hb
            subst hb
            intro hab; subst hab; exact hc.1 ha'
          · intro x hx
            rw [List.mem_append, List.mem_singleton] at hx
            rcases hx with hx | rfl
            · exact ha x hx
            · exact ⟨p1, p2, p3, p4, hc.2⟩

/-- The loop over the auxiliary primes never runs out of fuel; it fails only if there are not enough primes, and finds
the largest ones. -/
theorem extLoop_ok (pr : Profile) {degree : Nat} {moduli : List Nat} (hd : 1 ≤ degree) (hd2 : 2 * degree < 2 ^ 64) (fuel : Nat)
    (acc : List Nat) (ub : Nat) (hu1 : 1 ≤ ub) (hu2 : ub ≤ 2 ^ 62) (hf : ub ≤ fuel) (hacc : ∀ p ∈ acc, ub ≤ p)
    {ps : List Nat} (hps : ps.Nodup)
    (hp : ∀ p ∈ ps, p.Prime ∧ 2 ^ 61 ≤ p ∧ p < ub ∧ p % (2 * degree) = 1 ∧ p ∉ moduli)
    (hl : moduli.length + 1 ≤ acc.length + ps.length) (hal : acc.length ≤ moduli.length + 1) {B : Nat}
    (hB : ∀ p ∈ ps, B ≤ p) (hB2 : ∀ p ∈ acc, B ≤ p) : ∃ r, extLoop pr degree moduli fuel acc ub = .ok r ∧ ∀ p ∈ r, B ≤ p := by
  induction fuel generalizing acc ub ps with
  | zero => omega
  | succ fuel ih =>
    simp only [extLoop]
    split_ifs with hlen
    · exact ⟨_, rfl, hB2⟩
    · have hne : ps ≠ [] := by
        intro h0; subst h0; simp at hl; omega
      obtain ⟨o, ho, hs⟩ := generatePrime_ok pr (nb := 62) (modulo := 2 * degree) (ub := ub) (by norm_num) (by norm_num) (by omega) hu1 hu2
      rw [mulW_ok hd2, res_ok_bind, ho, res_ok_bind]
      cases o with
      | none =>
        exfalso
        -- a nonempty bounded set has a greatest element
        have hfin : ({p : Nat | p.Prime ∧ 2 ^ (62 - 1) ≤ p ∧ p < 2 ^ 62 ∧ p % (2 * degree) = 1 ∧ p < ub}).Finite :=
          (Set.finite_lt_nat ub).subset (fun p hp => hp.2.2.2.2)
        obtain ⟨a, ha⟩ := List.exists_mem_of_ne_nil ps hne
        obtain ⟨a1, a2, a3, a4, a5⟩ := hp a ha
        obtain ⟨g, hg⟩ := hfin.exists_maximal ⟨a, a1, by norm_num; omega, by omega, a4, a3⟩
        have : IsGreatest {p : Nat | p.Prime ∧ 2 ^ (62 - 1) ≤ p ∧ p < 2 ^ 62 ∧ p % (2 * degree) = 1 ∧ p < ub} g := by
          refine ⟨hg.prop, fun x hx => ?_⟩
          by_contra hlt
          exact hlt (hg.le_of_ge hx (by omega))
        have := (hs g).mpr this
        cases this
      | some p =>
        rw [show unwrapR (some p) = .ok p from rfl, res_ok_bind]
        obtain ⟨⟨p1, p2, p3, p4, p5⟩, hmax⟩ := (hs p).mp rfl
        have h2 := p1.two_le
        have hle : ∀ x ∈ ps, x ≤ p := fun x hx => by
          obtain ⟨a1, a2, a3, a4, a5⟩ := hp x hx
          exact hmax ⟨a1, by norm_num; omega, by omega, a4, a3⟩
        have hnc : p ∉ acc := fun hc => by have := hacc p hc; omega
        split_ifs with hc
        · simp only [Bool.or_eq_true, List.contains_iff_mem, hnc, false_or] at hc
          refine ih acc p (by omega) (by omega) (by omega) (fun x hx => by have := hacc x hx; omega) hps ?_ hl hal hB hB2
          intro x hx
          obtain ⟨a1, a2, a3, a4, a5⟩ := hp x hx
          have := hle x hx
          have hne : x ≠ p := fun h => a5 (h ▸ hc)
          exact ⟨a1, a2, by omega, a4, a5⟩
        · refine ih (acc ++ [p]) p (by omega) (by omega) (by omega) ?_ (ps := ps.erase p) (hps.erase p) ?_ ?_ (by simp; omega)
            (fun x hx => hB x (List.mem_of_mem_erase hx)) ?_
          · intro x hx
            rw [List.mem_append, List.mem_singleton] at hx
            rcases hx with hx | rfl
            · have := hacc x hx; omega
            · omega
          · intro x hx
            rw [hps.mem_erase_iff] at hx
            obtain ⟨a1, a2, a3, a4, a5⟩ := hp x hx.2
            have := hle x hx.2
            exact ⟨a1, a2, by omega, a4, a5⟩
          · have := List.length_erase (a := p) (l := ps)
            split_ifs at this <;> simp <;> omega
          · intro x hx
            rw [List.mem_append, List.mem_singleton] at hx
            rcases hx with hx | rfl
            · exact hB2 x hx
            · obtain ⟨a, ha⟩ := List.exists_mem_of_ne_nil ps hne
              exact (hB a ha).trans (hle a ha)

/-! ### Inverses of `-t` -/

theorem tInvRest_inv {pr : Profile} {t q r : Nat} (ht : 0 < t) (htq : t < q) (h : tInvRest pr t q = .ok r) :
    r = (q - t) ^ (q - 2) % q := by
  unfold tInvRest at h
  simp only [bind_eq_ok] at h
  obtain ⟨m, hm, n, hn, h⟩ := h
  obtain ⟨-, -, rfl, hw⟩ := Modulus.new_inv hm
  rw [Modulus.neg_ok hw pr htq] at hn
  have h1 : (m.p - t) % m.p = m.p - t := Nat.mod_eq_of_lt (by omega)
  have h2 := Except.ok.inj hn
  rw [h1] at h2
  subst h2
  rw [Modulus.inv_ok hw pr (by omega) (by omega)] at h
  exact (Except.ok.inj h).symm

theorem tInv_spec {q t : Nat} (hq : q.Prime) (ht : 0 < t) (htq : t < q) :
    (q : ℤ) ∣ (((q - t) ^ (q - 2) % q : Nat) : ℤ) * t + 1 := by
  have := Fact.mk hq
  rw [← ZMod.intCast_zmod_eq_zero_iff_dvd]
  have h2 := hq.two_le
  have hne : ((t : ℕ) : ZMod q) ≠ 0 := by
    rw [Ne, ZMod.natCast_eq_zero_iff]
    exact fun h => absurd (Nat.le_of_dvd ht h) (by omega)
  have hpow : (-(t : ZMod q)) ^ (q - 2) * (-(t : ZMod q)) = 1 := by
    rw [← pow_succ, show q - 2 + 1 = q - 1 by omega]
    exact ZMod.pow_card_sub_one_eq_one (neg_ne_zero.mpr hne)
  rw [Int.cast_add, Int.cast_mul, Int.cast_natCast, Int.cast_natCast, Int.cast_one, ZMod.natCast_mod, Nat.cast_pow, Nat.cast_sub htq.le,
    ZMod.natCast_self, zero_sub]
  linear_combination -hpow

/-! ### One level -/

/-- Number of auxiliary primes used next to the moduli `ms`. -/
def extraCount (ms : List Nat) : Nat := ((ms.map (fun q => Nat.log 2 q + 1)).sum + 60 + 61) / 62

/-- What the constructor establishes about one level. -/
structure LevelWF (K t : Nat) (ms ext : List Nat) (ptCtx : RqContext) (L : BfvLevel) : Prop where
  ctx : L.qCtx.WF K
  mods : L.qCtx.moduli64 = ms
  ectx : L.eCtx.WF K
  emods : L.eCtx.moduli64 = ms ++ ext.take (extraCount ms)
  cnt : extraCount ms ≤ ext.length
  qModT : L.qModT = L.qCtx.Q % t
  delta : ∃ d : ℤ, L.deltaT = enc L.qCtx .ntt (d : Rg (2 ^ K)) ∧ (L.qCtx.Q : ℤ) ∣ d * t + 1
  scalar : ∃ pr, RqScaler.new pr L.qCtx ptCtx ⟨t, L.qCtx.Q, decide (t = L.qCtx.Q)⟩ = .ok L.scalar
  src : L.mul.src = L.qCtx
  dst : L.mul.dst = L.eCtx
  up : ∃ pr, RqScaler.new pr L.qCtx L.eCtx ⟨1, 1, decide (1 = 1)⟩ = .ok L.mul.upScaler
  down : ∃ pr, RqScaler.new pr L.eCtx L.qCtx ⟨t, L.qCtx.Q, decide (t = L.qCtx.Q)⟩ = .ok L.mul.downScaler

theorem _root_.OnionPIR.RqContext.WF.prime {K : Nat} {c : RqContext} (h : c.WF K) {q : Nat} (hq : q ∈ c.moduli64) :
    q.Prime ∧ q % (2 * 2 ^ K) = 1 := by
  rw [h.core.m64_ops, List.mem_map] at hq
  obtain ⟨op, hop, rfl⟩ := hq
  obtain ⟨psi, psiInv, hw⟩ := h.op_wf hop
  exact ⟨hw.prime, hw.cong⟩

theorem sizes_ok (pr : Profile) (ms : List Nat) (hm : ∀ q ∈ ms, 2 ≤ q ∧ q < 2 ^ 62) :
    mapR (fun q => subW 64 pr 64 (leadingZeros 64 q)) ms = .ok (ms.map (fun q => Nat.log 2 q + 1)) := by
  apply mapR_ok
  intro q hq
  obtain ⟨h1, h2⟩ := hm q hq
  have hlog : Nat.log 2 q < 62 := Nat.log_lt_of_lt_pow (by omega) h2
  rw [leadingZeros_log (by omega), subW_ok (by omega)]
  congr 1; omega

theorem log_sum_le (ms : List Nat) (hm : ∀ q ∈ ms, 2 ≤ q ∧ q < 2 ^ 62) :
    (ms.map (fun q => Nat.log 2 q + 1)).sum ≤ 62 * ms.length := by
  induction ms with
  | nil => simp
  | cons q ms ih =>
    obtain ⟨h1, h2⟩ := hm q (by simp)
    have hlog : Nat.log 2 q < 62 := Nat.log_lt_of_lt_pow (by omega) h2
    have := ih (fun q hq => hm q (by simp [hq]))
    simp only [List.map_cons, List.sum_cons, List.length_cons]
    omega

theorem sizeSum_ok (pr : Profile) (l : List Nat) (a : Nat) (h : a + l.sum < 2 ^ 64) :
    foldR (addW 64 pr) a l = .ok (a + l.sum) := by
  induction l generalizing a with
  | nil => rfl
  | cons x l ih =>
    rw [List.sum_cons] at h ⊢
    rw [foldR_cons, addW_ok (by omega), res_ok_bind, ih _ (by omega), Nat.add_assoc]

theorem extraCount_le (ms : List Nat) (hm : ∀ q ∈ ms, 2 ≤ q ∧ q < 2 ^ 62) : extraCount ms ≤ ms.length + 1 := by
  have := log_sum_le ms hm
  unfold extraCount
  omega

theorem count_ok (pr : Profile) (ms : List Nat) (hm : ∀ q ∈ ms, 2 ≤ q ∧ q < 2 ^ 62) (hn : ms.length ≤ 2 ^ 30) :
    (mapR (fun q => subW 64 pr 64 (leadingZeros 64 q)) ms >>= fun sizes => foldR (addW 64 pr) 0 sizes >>= fun sizeSum =>
      addW 64 pr sizeSum 60 >>= fun bits => divCeil 64 pr bits 62) = .ok (extraCount ms) := by
  have hs := log_sum_le ms hm
  rw [sizes_ok pr ms hm, res_ok_bind, sizeSum_ok pr _ 0 (by omega), res_ok_bind, addW_ok (by omega), res_ok_bind]
  unfold divCeil
  rw [rassert_ok (by norm_num), res_ok_bind, addW_ok (by omega), res_ok_bind, subW_ok (by omega), res_ok_bind, divR_ok (by norm_num)]
  unfold extraCount
  congr 2; omega

theorem scalingFactor_inv {a b : Nat} {sf : ScalingFactor} (h : ScalingFactor.new a b = .ok sf) :
    b ≠ 0 ∧ sf = ⟨a, b, decide (a = b)⟩ := by
  unfold ScalingFactor.new at h
  simp only [bind_eq_ok, rassert_eq_ok] at h
  obtain ⟨_, h1, h2⟩ := h
  exact ⟨h1, (Except.ok.inj h2).symm⟩

/-- The lifted inverses of `-t`. -/
theorem delta_spec {K : Nat} {c : RqContext} (h : c.WF K) {t : Nat} (ht : 0 < t) {moduli : List Nat} {k : Nat}
    (hm : c.moduli64 = moduli.take k) (htq : ∀ q ∈ moduli, t < q) :
    ∃ v : Nat, c.rns.lift (moduli.map (fun q => (q - t) ^ (q - 2) % q)) = .ok v ∧ (c.Q : ℤ) ∣ (v : ℤ) * t + 1 := by
  have hlen : c.rns.moduliU64.length ≤ (moduli.map (fun q => (q - t) ^ (q - 2) % q)).length := by
    rw [← h.core.m64, hm]; simp
  obtain ⟨v, hv, hr⟩ := RnsContext.lift_long h.core.rns hlen
  refine ⟨v, hv, ?_⟩
  unfold RqContext.Q
  rw [← RqContext.prod_dvd_int h.cop]
  intro q hq
  obtain ⟨j, hj, rfl⟩ := List.getElem_of_mem hq
  have hpr := (h.prime hq).1
  have hr := hr j (by rw [← h.core.m64]; exact hj)
  rw [← h.core.m64, getD_eq_getElem' _ _ _ hj] at hr
  have hj' : j < moduli.length := by rw [hm] at hj; simp at hj; omega
  have hq' : c.moduli64[j] = moduli[j] := by
    simp only [hm, List.getElem_take]
  have ht' := htq _ (List.getElem_mem hj')
  rw [← hq'] at ht'
  have hs := tInv_spec hpr ht ht'
  have hg : (moduli.map (fun q => (q - t) ^ (q - 2) % q)).getD j 0 = (c.moduli64[j] - t) ^ (c.moduli64[j] - 2) % c.moduli64[j] := by
    rw [NttOperator.getD_map_of_lt _ _ _ 1 _ hj', getD_eq_getElem' _ _ _ hj', hq']
  rw [hg, Nat.mod_mod] at hr
  have h1 : (c.moduli64[j] : ℤ) ∣ (v : ℤ) - ((c.moduli64[j] - t) ^ (c.moduli64[j] - 2) % c.moduli64[j] : Nat) := by
    apply Int.dvd_self_sub_of_emod_eq
    rw [← hr, Int.natCast_mod]
  have h2 := dvd_add (Dvd.dvd.mul_right h1 (t : ℤ)) hs
  refine h2.trans (dvd_of_eq ?_)
  ring

theorem level_inv {pr : Profile} {sample : Nat → Nat → Nat} (hs : ∀ p i, 0 < p → sample p i < p) {K t : Nat} (hK : 2 ^ K < 2 ^ 64)
    (ht : 0 < t) (ht2 : t < 2 ^ 62) {moduli ext : List Nat} (htq : ∀ q ∈ moduli, t < q) (hn : moduli.length ≤ 2 ^ 30) {bd : BitDecomposition}
    {ptCtx : RqContext} {i : Nat} {L : BfvLevel}
    (h : level pr sample (2 ^ K) t moduli ext (moduli.map (fun q => (q - t) ^ (q - 2) % q)) bd ptCtx i = .ok L) :
    LevelWF K t (moduli.take (moduli.length - i)) ext ptCtx L := by
  have hctx : ∀ {l : List Nat} {c : RqContext}, RqContext.new pr sample l (2 ^ K) bd = .ok c → c.WF K ∧ c.moduli64 = l := by
    intro l c hc
    obtain ⟨K', e, h1, h2⟩ := RqContext.new_wf hs hK hc
    have := Nat.pow_right_injective (le_refl 2) e
    subst this
    exact ⟨h1, h2⟩
  unfold level at h
  rw [takeR_ok (by omega), res_ok_bind] at h
  set ms := moduli.take (moduli.length - i) with hms
  rw [bind_eq_ok] at h
  obtain ⟨qCtx, hq, h⟩ := h
  obtain ⟨hw, hm⟩ := hctx hq
  have hbd : ∀ q ∈ ms, 2 ≤ q ∧ q < 2 ^ 62 := fun q hq => hw.bound (hm ▸ hq)
  have hln : ms.length ≤ 2 ^ 30 := by rw [hms, List.length_take]; omega
  obtain ⟨v, hv, hvd⟩ := delta_spec hw ht hm htq
  have hmod : qCtx.rns.modulus = qCtx.Q := hw.Q_eq
  rw [hmod, modR_ok (by omega), res_ok_bind, RnsScaler.toU64R_ok (by have := Nat.mod_lt qCtx.Q ht; omega), res_ok_bind, hv, res_ok_bind,
    Poly.tryFromBigint_ok hw (by simp; exact Nat.one_le_two_pow), res_ok_bind, Poly.toNtt_enc hw, res_ok_bind] at h
  simp only [bind_eq_ok] at h
  obtain ⟨sf, hsf, scalar, hsc, sizes, hsz, sum, hsum, bits, hbits, count, hcount, extra, hext, eCtx, he, one, hone, down, hdown,
    mul, hmul, h⟩ := h
  have hcnt := count_ok pr ms hbd hln
  rw [hsz, res_ok_bind, hsum, res_ok_bind, hbits, res_ok_bind, hcount] at hcnt
  have hcnt := Except.ok.inj hcnt
  subst hcnt
  obtain ⟨hc1, rfl⟩ := takeR_inv hext
  obtain ⟨hew, hem⟩ := hctx he
  obtain ⟨-, rfl⟩ := scalingFactor_inv hsf
  obtain ⟨-, rfl⟩ := scalingFactor_inv hone
  obtain ⟨-, rfl⟩ := scalingFactor_inv hdown
  unfold MultiplicationParameters.new at hmul
  simp only [bind_eq_ok] at hmul
  obtain ⟨u, hu, d, hd, hmul⟩ := hmul
  cases hmul
  cases h
  refine ⟨hw, hm, hew, hem, hc1, rfl, ⟨v, ?_, hvd⟩, ⟨pr, hsc⟩, rfl, rfl, ⟨pr, hu⟩, ⟨pr, hd⟩⟩
  simp [Poly.ofList_singleton]

/-! ### All levels -/

/-- Level `i` of the parameters is `L`. -/
structure At (K : Nat) (P : BfvParameters) (ext : List Nat) (i : Nat) (L : BfvLevel) : Prop where
  lt : i < P.ciphertextModuli.length
  q : P.qCtxs[i]? = some L.qCtx
  e : P.eCtxs[i]? = some L.eCtx
  mp : P.mulParams[i]? = some L.mul
  del : P.deltaTs[i]? = some L.deltaT
  qmt : P.qModTs[i]? = some L.qModT
  sc : P.scalars[i]? = some L.scalar
  wf : LevelWF K P.plaintextModulus (P.ciphertextModuli.take (P.ciphertextModuli.length - i)) ext P.ptCtx L

structure WF (K : Nat) (P : BfvParameters) (ext : List Nat) : Prop where
  deg : P.degree = 2 ^ K
  three : 3 ≤ K
  K_le : K ≤ 62
  t_prime : P.plaintextModulus.Prime
  t_cong : P.plaintextModulus % (2 * 2 ^ K) = 1
  t_lt : P.plaintextModulus < 2 ^ 62
  len : P.ciphertextModuli.length ≤ 2 ^ 30
  ne : P.ciphertextModuli ≠ []
  lt_q : ∀ q ∈ P.ciphertextModuli, P.plaintextModulus < q
  pt : P.ptCtx.WF K
  pt_mods : P.ptCtx.moduli64 = [P.ciphertextModuli.getD 0 0]
  ntt : ∃ op psi psiInv, P.ptNtt = some op ∧ op.WF K psi psiInv ∧ op.p.p = P.plaintextModulus
  ext_len : ext.length = P.ciphertextModuli.length + 1
  ext_nodup : ext.Nodup
  ext_mem : ∀ p ∈ ext, p.Prime ∧ 2 ^ 61 ≤ p ∧ p < 2 ^ 62 ∧ p % (2 * 2 ^ K) = 1 ∧ p ∉ P.ciphertextModuli
  levels : ∀ i, i < P.ciphertextModuli.length → ∃ L, P.At K ext i L
  nLevels : P.qCtxs.length = P.ciphertextModuli.length
  map : ∃ pr, indexMap pr P.degree = .ok P.matrixRepsIndexMap

theorem new_wf {pr : Profile} {sample : Nat → Nat → Nat} (hs : ∀ p i, 0 < p → sample p i < p) {degree : Nat} (hd : degree < 2 ^ 63)
    {t : Nat} {moduli : List Nat} (htq : ∀ q ∈ moduli, t < q) (hn : moduli.length ≤ 2 ^ 30) {variance : Nat} {bd : BitDecomposition}
    {P : BfvParameters} (h : new pr sample degree t moduli variance bd = .ok P) :
    (∃ K ext, P.WF K ext) ∧ P.degree = degree ∧ P.plaintextModulus = t ∧ P.ciphertextModuli = moduli ∧ P.variance = variance := by
  unfold new at h
  simp only [bind_eq_ok] at h
  obtain ⟨ext, hext, tInvs, htInvs, q0, hq0, ptCtx, hpt, levels, hlev, map, hmap, tm, htm, op, hop, h⟩ := h
  obtain ⟨K, rfl, hptw, hptm⟩ := RqContext.new_wf hs (by omega) hpt
  obtain ⟨ht2, htl, rfl, htw⟩ := Modulus.new_inv htm
  obtain ⟨K', psi, psiInv, hop1, hop2, hop3⟩ := NttOperator.new_wf htw pr (by omega) _ (fun i => hs _ i (by omega)) hop
  have hKK : K' = K := Nat.pow_right_injective (le_refl 2) (show 2 ^ K' = 2 ^ K by rw [← hop1.size, hop3])
  subst hKK
  have htI : tInvs = moduli.map (fun q => (q - tm.p) ^ (q - 2) % q) := by
    have := RqContext.mapR_map_eq htInvs (g := id) (g' := fun q => (q - tm.p) ^ (q - 2) % q)
      (fun a b ha hb => tInvRest_inv (by omega) (htq a ha) hb)
    simpa using this
  subst htI
  obtain ⟨e1, e2, e3⟩ := extLoop_inv (Nat.one_le_two_pow) (by omega) _ _ _ (by norm_num) (le_refl _) hext List.nodup_nil (by simp)
  obtain ⟨l1, l2⟩ := mapR_inv hlev
  have hq0' : moduli[0]? = some q0 := by
    unfold idx at hq0
    split at hq0
    · rename_i x hx; cases hq0; exact hx
    · cases hq0
  have hpp := hop1.prime
  have hcong := hop1.cong
  rw [hop2] at hpp hcong
  cases h
  refine ⟨⟨K', ext, ?_⟩, rfl, rfl, rfl, rfl⟩
  refine ⟨rfl, hop1.three_le, hop1.K_le, hpp, hcong, htl, hn, ?_, htq, hptw, ?_, ⟨op, psi, psiInv, rfl, hop1, by rw [hop2]⟩, e1, e2, e3,
    ?_, by simp [l1], ⟨pr, hmap⟩⟩
  · rintro rfl; simp at hq0'
  · rw [hptm]; simp [List.getD, hq0']
  · intro i hi
    obtain ⟨L, hL, hLv⟩ := l2 i i (by rw [List.getElem?_range (by simpa using hi)])
    refine ⟨L, hi, ?_, ?_, ?_, ?_, ?_, ?_, level_inv hs (by omega) (by omega) htl htq hn hLv⟩ <;> simp [List.getElem?_map, hL]

end BfvParameters
end OnionPIR
