import Verif.Model.CostClient
import Verif.Proofs.CostServer
/-
The functions of Model/CostClient: their values are those of the first model, and their work for operands of given sizes.
-/
namespace OnionPIR
open Cw

variable {K n : Nat} {c : RqContext} (pr : Profile)

section Values

theorem Poly.randomSmallC_val (ctx : RqContext) (rep : Representation) (variance : Nat) (rng : Nat → Nat) :
    (Poly.randomSmallC pr ctx rep variance rng).val = Poly.randomSmall pr ctx rep variance rng := by
  simp only [randomSmallC, randomSmall, bind_val, lift_val, changeRepresentationC_val]

theorem Plaintext.toPolyC_val (p : Plaintext) : (p.toPolyC pr).val = p.toPoly pr := by
  simp only [toPolyC, toPoly, bind_val, lift_val, Poly.changeRepresentationC_val, Poly.mulC_val]

namespace SecretKey

theorem polyNttC_val (sk : SecretKey) (ctx : RqContext) : (sk.polyNttC pr ctx).val = sk.polyNtt pr ctx := by
  simp only [polyNttC, polyNtt, bind_val, lift_val, Poly.changeRepresentationC_val]

theorem encryptPolyC_val (sk : SecretKey) (pt : Poly) (a : Nat → Nat → Nat) (rng : Nat → Nat) : (sk.encryptPolyC pr pt a rng).val = sk.encryptPoly pr pt a rng := by
  simp only [encryptPolyC, encryptPoly, bind_val, lift_val, pure_val, polyNttC_val, Poly.mulC_val, Poly.randomSmallC_val]

theorem encryptC_val (sk : SecretKey) (pt : Plaintext) (a : Nat → Nat → Nat) (rng : Nat → Nat) : (sk.encryptC pr pt a rng).val = sk.encrypt pr pt a rng := by
  simp only [encryptC, encrypt, bind_val, Plaintext.toPolyC_val, encryptPolyC_val]

theorem phaseC_val (sk : SecretKey) (cts : List Poly) : (sk.phaseC pr cts).val = sk.phase pr cts := by
  simp only [phaseC, phase, phaseStepC, bind_val, lift_val, pure_val, fold_val, polyNttC_val, Poly.mulC_val]
  rfl

theorem decryptC_val (sk : SecretKey) (ct : BfvCipherText) : (sk.decryptC pr ct).val = sk.decrypt pr ct := by
  simp only [decryptC, decrypt, bind_val, lift_val, phaseC_val, Poly.changeRepresentationC_val]

end SecretKey

theorem Ksk.newC_val (sk : SecretKey) (src : Poly) (i j : Nat) (a : Nat → Nat → Nat → Nat) (rng : Nat → Nat → Nat) :
    (Ksk.newC pr sk src i j a rng).val = Ksk.new pr sk src i j a rng := by
  simp only [newC, new, newC0C, newC0, bind_val, lift_val, pure_val, map_val, SecretKey.polyNttC_val, Poly.mulC_val, Poly.mulBigC_val, Poly.randomSmallC_val]

theorem GaliosKey.newC_val (sk : SecretKey) (s : Substitution) (i : Nat) (a : Nat → Nat → Nat → Nat) (rng : Nat → Nat → Nat) :
    (GaliosKey.newC pr sk s i a rng).val = GaliosKey.new pr sk s i a rng := by
  simp only [newC, new, bind_val, lift_val, pure_val, Poly.changeRepresentationC_val, Ksk.newC_val]

theorem RelinearizationKey.newC_val (sk : SecretKey) (i : Nat) (a : Nat → Nat → Nat → Nat) (rng : Nat → Nat → Nat) :
    (RelinearizationKey.newC pr sk i a rng).val = RelinearizationKey.new pr sk i a rng := by
  simp only [newC, new, bind_val, lift_val, pure_val, SecretKey.polyNttC_val, Poly.mulC_val, Ksk.newC_val]

theorem RgswCt.encryptPolyC_val (sk : SecretKey) (m : Poly) (a0 a1 : Nat → Nat → Nat → Nat) (r0 r1 : Nat → Nat → Nat) :
    (RgswCt.encryptPolyC pr sk m a0 a1 r0 r1).val = RgswCt.encryptPoly pr sk m a0 a1 r0 r1 := by
  simp only [encryptPolyC, encryptPoly, bind_val, lift_val, pure_val, SecretKey.polyNttC_val, Poly.mulC_val, Ksk.newC_val]

theorem Evaluation.buildC_val (sk : SecretKey) (P : BfvParameters) (a : Nat → Nat → Nat → Nat → Nat) (rng : Nat → Nat → Nat → Nat)
    (a0 a1 : Nat → Nat → Nat → Nat) (r0 r1 : Nat → Nat → Nat) : (Evaluation.buildC pr sk P a rng a0 a1 r0 r1).val = Evaluation.build pr sk P a rng a0 a1 r0 r1 := by
  simp only [buildC, build, buildStepC, bind_val, lift_val, pure_val, fold_val, SecretKey.polyNttC_val, GaliosKey.newC_val, RgswCt.encryptPolyC_val]
  rfl

theorem Tests.queryCtsC_val (P : BfvParameters) (sk : SecretKey) (enc : List Nat) (aq : Nat → Nat → Nat) (rq : Nat → Nat) (a : Nat → Nat → Nat → Nat)
    (r : Nat → Nat → Nat) : (Tests.queryCtsC pr P sk enc aq rq a r).val = Tests.queryCts pr P sk enc aq rq a r := by
  simp only [queryCtsC, queryCts, garnerCtsC, garnerCts, bind_val, lift_val, pure_val, map_val, SecretKey.encryptC_val, SecretKey.encryptPolyC_val,
    Poly.changeRepresentationC_val, Poly.mulBigC_val]
  by_cases h : 4 ≤ enc.length <;> simp only [h, if_true, if_false]

end Values

/-! ### Sizes and work -/

namespace Poly

theorem random_dim (c : RqContext) (tape : Nat → Nat → Nat) (r : Representation) : (random c tape r).Dim c r := by
  refine ⟨rfl, rfl, ?_⟩
  simp only [random, List.map_map, Function.comp_def, List.length_map, List.length_range]
  simp

theorem substRowPower_length {d e : Nat} {zs src : List Nat} {q : Modulus} {r : List Nat} (h : substRowPower pr d e zs src q = .ok r) : r.length = zs.length := by
  unfold substRowPower at h
  obtain ⟨st, h1, h2⟩ := bind_eq_ok.mp h
  obtain rfl := Except.ok.inj h2
  suffices H : ∀ (xs : List Nat) (s s' : List Nat × Nat), foldR (substStep pr d e q src) s xs = .ok s' → s'.1.length = s.1.length from H _ _ _ h1
  intro xs
  induction xs with
  | nil => intro s s' hs; rw [← Except.ok.inj hs]
  | cons x xs ih =>
    intro s s' hs
    rw [foldR_cons] at hs
    obtain ⟨s1, k1, k2⟩ := bind_eq_ok.mp hs
    rw [ih _ _ k2]
    unfold substStep at k1
    obtain ⟨o, -, k1⟩ := bind_eq_ok.mp k1
    obtain ⟨t, -, k1⟩ := bind_eq_ok.mp k1
    obtain ⟨v, -, k1⟩ := bind_eq_ok.mp k1
    obtain ⟨w, -, k1⟩ := bind_eq_ok.mp k1
    rw [← Except.ok.inj k1, List.length_set]

theorem substitute_dim_power {a p : Poly} {s : Substitution} (ha : a.Dim c .powerBasis) (h : a.substitute pr s = .ok p) : p.Dim c .powerBasis := by
  unfold substitute at h
  rw [ha.2.1] at h
  obtain ⟨r, h1, h⟩ := bind_eq_ok.mp h
  obtain rfl := Except.ok.inj h
  exact ⟨ha.1, rfl, (zip3MutM_map_eq List.length (fun _ _ _ _ hx => substRowPower_length pr hx) h1).trans (by rw [(zero_dim _ _).2.2, ha.1])⟩

theorem randomSmallC_costs (hc : c.Dim K n) (variance : Nat) (rng : Nat → Nat) :
    Costs (randomSmallC pr c .ntt variance rng) ⟨n * (K * 2 ^ (K - 1)), 0⟩ (Poly.Dim c .ntt) :=
  .liftBind fun _ _ => .liftBind fun _ hp => changeRepresentationC_ntt_costs pr hc (fromRows_dim hp)

end Poly

theorem Plaintext.toPolyC_costs {p : Plaintext} {d : Poly} (hc : c.Dim K n) (hq : p.params.qCtxs[p.level]? = some c) (hd : p.params.deltaTs[p.level]? = some d)
    (hdd : d.Dim c .ntt) : Costs (p.toPolyC pr) ⟨n * (K * 2 ^ (K - 1)), n * 2 ^ K⟩ (Poly.Dim c .ntt) := by
  refine .liftBind fun _ _ => .liftBind fun c' hc' => .liftBind fun d' hd' => .liftBind fun _ _ => .liftBind fun _ _ => .liftBind fun x hx => ?_
  obtain rfl := Option.some.inj ((idx_eq_ok.mp hc').symm.trans hq)
  obtain rfl := Option.some.inj ((idx_eq_ok.mp hd').symm.trans hd)
  refine Costs.cast ((Poly.changeRepresentationC_ntt_costs pr hc (Poly.fromRows_dim hx)).bind fun y hy => Poly.mulC_costs pr hc hy hdd) ?_
  work

namespace SecretKey

theorem polyNttC_costs (hc : c.Dim K n) (sk : SecretKey) : Costs (sk.polyNttC pr c) ⟨n * (K * 2 ^ (K - 1)), 0⟩ (Poly.Dim c .ntt) :=
  .liftBind fun _ hp => Poly.changeRepresentationC_ntt_costs pr hc (Poly.fromRows_dim hp)

theorem encryptPolyC_costs (hc : c.Dim K n) (sk : SecretKey) {p : Poly} (hp : p.context = c) (a : Nat → Nat → Nat) (rng : Nat → Nat) :
    Costs (sk.encryptPolyC pr p a rng) ⟨2 * n * (K * 2 ^ (K - 1)), n * 2 ^ K⟩ fun _ => True := by
  subst hp
  refine Costs.cast ((polyNttC_costs pr hc sk).bind fun s hs => (Poly.mulC_costs pr hc (Poly.random_dim _ a .ntt) hs).bind fun as _ =>
    (Poly.randomSmallC_costs pr hc _ rng).bind fun b _ => .liftBind fun _ _ => .liftBind fun _ _ => .pure trivial) ?_
  work

theorem encryptC_costs {p : Plaintext} {d : Poly} (hc : c.Dim K n) (hq : p.params.qCtxs[p.level]? = some c) (hd : p.params.deltaTs[p.level]? = some d)
    (hdd : d.Dim c .ntt) (sk : SecretKey) (a : Nat → Nat → Nat) (rng : Nat → Nat) :
    Costs (sk.encryptC pr p a rng) ⟨3 * n * (K * 2 ^ (K - 1)), 2 * n * 2 ^ K⟩ fun _ => True := by
  refine Costs.cast ((Plaintext.toPolyC_costs pr hc hq hd hdd).bind fun x hx => encryptPolyC_costs pr hc sk hx.1 a rng) ?_
  work

theorem phaseC_costs (hc : c.Dim K n) (sk : SecretKey) {cts : List Poly} (h : ∀ p ∈ cts, p.Dim c .ntt) :
    Costs (sk.phaseC pr cts) ⟨n * (K * 2 ^ (K - 1)), 2 * (cts.length - 1) * n * 2 ^ K⟩ (Poly.Dim c .ntt) := by
  refine .liftBind fun c0 h0 => ?_
  have hc0 := h c0 (List.mem_of_getElem? (idx_eq_ok.mp h0))
  rw [hc0.1]
  refine Costs.cast ((polyNttC_costs pr hc sk).bind fun s hs =>
    (Costs.foldConst (w := ⟨0, 2 * n * 2 ^ K⟩) (I := fun st : Poly × Poly => st.1.Dim c .ntt ∧ st.2.Dim c .ntt) (fun st x hx hst => ?_) ⟨hc0, hs⟩).bindPure
      fun st hst => hst.1) ?_
  · refine Costs.cast ((Poly.mulC_costs pr hc hst.2 (h x (List.mem_of_mem_drop hx))).bind fun y _ => .liftBind fun m hm =>
      (Poly.mulC_costs pr hc hst.2 hs).bindPure fun si hsi => ⟨Poly.add_dim pr hst.1 hm, hsi⟩) ?_
    work
  · rw [List.length_drop]
    work

theorem decryptC_costs (hc : c.Dim K n) (sk : SecretKey) {ct : BfvCipherText} (h : ct.Dim c) :
    Costs (sk.decryptC pr ct) ⟨2 * n * (K * 2 ^ (K - 1)), (2 * (ct.cts.length - 1) + 1) * n * 2 ^ K⟩ fun _ => True := by
  refine Costs.cast ((phaseC_costs pr hc sk h).bind fun m hm => (Poly.changeRepresentationC_power_costs pr hc hm).bind (w' := 0) fun m _ => .lift fun _ _ => trivial) ?_
  work

end SecretKey

namespace Ksk

theorem newC0C_costs (hc : c.Dim K n) (P : BfvParameters) {s src c1 : Poly} (hs : s.Dim c .ntt) (hsrc : src.Dim c .ntt) (h1 : c1.Dim c .ntt) (g : Nat) (rng : Nat → Nat) :
    Costs (newC0C pr P c s src c1 g rng) ⟨2 * n * (K * 2 ^ (K - 1)), 2 * n * 2 ^ K⟩ (Poly.Dim c .ntt) := by
  refine Costs.cast ((Poly.mulC_costs pr hc h1 hs).bind fun as _ => (Poly.randomSmallC_costs pr hc _ rng).bind fun b hb => .liftBind fun b' hb' =>
    (Poly.mulBigC_costs pr hc hsrc g).bind fun m _ => .lift fun v hv => Poly.add_dim pr (Poly.sub_dim pr hb hb') hv) ?_
  work

/-- A context with as many moduli and Garner coefficients in its RNS part. -/
theorem newC_costs (hc : c.Dim K n) (hm : c.rns.moduli.length = n) (hg : c.rns.garner.length = n) {sk : SecretKey} {i : Nat} (hq : sk.params.qCtxs[i]? = some c)
    {src : Poly} (hsrc : src.Dim c .ntt) (a : Nat → Nat → Nat → Nat) (rng : Nat → Nat → Nat) :
    Costs (newC pr sk src i i a rng) ⟨(2 * n ^ 2 + n) * (K * 2 ^ (K - 1)), 2 * n ^ 2 * 2 ^ K⟩ (Ksk.Dim c) := by
  refine .liftBind fun c1 hc1 => .liftBind fun c2 hc2 => ?_
  obtain rfl : c1 = c := Option.some.inj ((idx_eq_ok.mp hc1).symm.trans hq)
  obtain rfl : c2 = c1 := Option.some.inj ((idx_eq_ok.mp hc2).symm.trans hq)
  refine Costs.cast ((SecretKey.polyNttC_costs pr hc sk).bind (w' := Work.times n ⟨2 * n * (K * 2 ^ (K - 1)), 2 * n * 2 ^ K⟩) fun s hs => ?_) (by work)
  have hl : ((List.range c2.rns.moduli.length).zip (((List.range c2.rns.moduli.length).map fun k => Poly.random c2 (a k) .ntt).zip c2.rns.garner)).length = n := by
    simp [hm, hg]
  refine (Costs.cast (Costs.mapConst (Q := fun _ => Poly.Dim c2 .ntt) fun x hx => ?_) (by rw [hl])).bindPure fun r hr => ?_
  · obtain ⟨k, -, hk⟩ := List.mem_map.mp (List.of_mem_zip (List.of_mem_zip hx).2).1
    exact newC0C_costs pr hc _ hs hsrc (by rw [← hk]; exact Poly.random_dim _ _ _) _ _
  · refine ⟨rfl, rfl, ?_, ?_, fun p hp => ?_, fun p hp => ?_⟩
    · rw [← hr.length_eq, hl, hc.mods]
    · simp [hm, hc.mods]
    · obtain ⟨j, hj, rfl⟩ := List.mem_iff_getElem.mp hp
      exact (List.forall₂_iff_get.mp hr).2 j (by rw [hr.length_eq]; exact hj) hj
    · obtain ⟨k, -, hk⟩ := List.mem_map.mp hp
      rw [← hk]
      exact Poly.random_dim _ _ _

end Ksk

section Keys
variable (hc : c.Dim K n) (hm : c.rns.moduli.length = n) (hg : c.rns.garner.length = n) {sk : SecretKey}
include hc hm hg

theorem GaliosKey.newC_costs {i : Nat} (hq : sk.params.qCtxs[i]? = some c) (s : Substitution) (a : Nat → Nat → Nat → Nat) (rng : Nat → Nat → Nat) :
    Costs (GaliosKey.newC pr sk s i a rng) ⟨(2 * n ^ 2 + 2 * n) * (K * 2 ^ (K - 1)), 2 * n ^ 2 * 2 ^ K⟩ fun _ => True := by
  refine .liftBind fun _ _ => .liftBind fun c1 hc1 => .liftBind fun x hx => .liftBind fun y hy => ?_
  obtain rfl := Option.some.inj ((idx_eq_ok.mp hc1).symm.trans hq)
  refine Costs.cast ((Poly.changeRepresentationC_ntt_costs pr hc (Poly.substitute_dim_power pr (Poly.fromRows_dim hx) hy)).bind fun z hz =>
    (Ksk.newC_costs pr hc hm hg hq hz a rng).bindPure (R := fun _ => True) fun _ _ => trivial) ?_
  work

theorem RelinearizationKey.newC_costs {i : Nat} (hq : sk.params.qCtxs[i]? = some c) (a : Nat → Nat → Nat → Nat) (rng : Nat → Nat → Nat) :
    Costs (RelinearizationKey.newC pr sk i a rng) ⟨(2 * n ^ 2 + 2 * n) * (K * 2 ^ (K - 1)), (2 * n ^ 2 + n) * 2 ^ K⟩ fun _ => True := by
  refine .liftBind fun c1 hc1 => ?_
  obtain rfl := Option.some.inj ((idx_eq_ok.mp hc1).symm.trans hq)
  refine Costs.cast ((SecretKey.polyNttC_costs pr hc sk).bind fun s hs => (Poly.mulC_costs pr hc hs hs).bind fun s2 hs2 =>
    (Ksk.newC_costs pr hc hm hg hq hs2 a rng).bindPure (R := fun _ => True) fun _ _ => trivial) ?_
  work

theorem RgswCt.encryptPolyC_costs {i : Nat} (hq : sk.params.qCtxs[i]? = some c) (hi : sk.params.ctxLevel c = some i) {m : Poly} (hmd : m.Dim c .ntt)
    (a0 a1 : Nat → Nat → Nat → Nat) (r0 r1 : Nat → Nat → Nat) :
    Costs (RgswCt.encryptPolyC pr sk m a0 a1 r0 r1) ⟨(4 * n ^ 2 + 3 * n) * (K * 2 ^ (K - 1)), (4 * n ^ 2 + n) * 2 ^ K⟩ fun _ => True := by
  refine .liftBind fun _ _ => .liftBind fun i' hi' => ?_
  rw [hmd.1, hi] at hi'
  obtain rfl := Except.ok.inj hi'
  rw [hmd.1]
  refine Costs.cast ((SecretKey.polyNttC_costs pr hc sk).bind fun s hs => (Poly.mulC_costs pr hc hs hmd).bind fun s2 hs2 =>
    (Ksk.newC_costs pr hc hm hg hq hs2 a0 r0).bind fun _ _ =>
    (Ksk.newC_costs pr hc hm hg hq hmd a1 r1).bindPure (R := fun _ => True) fun _ _ => trivial) ?_
  work

theorem Evaluation.buildC_costs (hq : sk.params.qCtxs[0]? = some c) (hi : sk.params.ctxLevel c = some 0) {lg : Nat} (hlg : ilog2 64 pr sk.params.degree = .ok lg)
    (a : Nat → Nat → Nat → Nat → Nat) (rng : Nat → Nat → Nat → Nat) (a0 a1 : Nat → Nat → Nat → Nat) (r0 r1 : Nat → Nat → Nat) :
    Costs (Evaluation.buildC pr sk sk.params a rng a0 a1 r0 r1)
      ⟨(lg * (2 * n ^ 2 + 2 * n) + (4 * n ^ 2 + 4 * n)) * (K * 2 ^ (K - 1)), (lg * (2 * n ^ 2) + (4 * n ^ 2 + n)) * 2 ^ K⟩ fun _ => True := by
  refine .liftBind fun lg' hlg' => ?_
  obtain rfl := Except.ok.inj (hlg'.symm.trans hlg)
  refine Costs.cast ((Costs.foldConst (w := ⟨(2 * n ^ 2 + 2 * n) * (K * 2 ^ (K - 1)), 2 * n ^ 2 * 2 ^ K⟩) (I := fun _ => True) (fun m i _ _ => ?_) trivial).bind
    (w' := ⟨n * (K * 2 ^ (K - 1)), 0⟩ + ⟨(4 * n ^ 2 + 3 * n) * (K * 2 ^ (K - 1)), (4 * n ^ 2 + n) * 2 ^ K⟩) fun gk _ => .liftBind fun c1 hc1 => ?_) ?_
  · exact .liftBind fun _ _ => .liftBind fun _ _ => .liftBind fun _ _ => .liftBind fun _ _ => .liftBind fun _ _ =>
      (GaliosKey.newC_costs pr hc hm hg hq _ _ _).bindPure fun _ _ => trivial
  · obtain rfl := Option.some.inj ((idx_eq_ok.mp hc1).symm.trans hq)
    exact (SecretKey.polyNttC_costs pr hc sk).bind fun m hmd => (RgswCt.encryptPolyC_costs pr hc hm hg hq hi hmd _ _ _ _).bindPure fun _ _ => trivial
  · rw [List.length_range]
    work

theorem Tests.queryCtsC_costs {P : BfvParameters} {d : Poly} (hq : P.qCtxs[0]? = some c) (hd : P.deltaTs[0]? = some d) (hdd : d.Dim c .ntt) (enc : List Nat)
    (aq : Nat → Nat → Nat) (rq : Nat → Nat) (a : Nat → Nat → Nat → Nat) (r : Nat → Nat → Nat) :
    Costs (Tests.queryCtsC pr P sk enc aq rq a r) ⟨(3 * n ^ 2 + 4 * n) * (K * 2 ^ (K - 1)), (2 * n ^ 2 + 2 * n) * 2 ^ K⟩ fun _ => True := by
  refine .liftBind fun pt hpt => ?_
  have hp : pt.params = P ∧ pt.level = 0 := by
    obtain ⟨e, -, he⟩ := bind_eq_ok.mp hpt
    rw [← Except.ok.inj he]
    exact ⟨rfl, rfl⟩
  refine Costs.cast ((SecretKey.encryptC_costs pr (p := pt) hc (by rw [hp.1, hp.2]; exact hq) (by rw [hp.1, hp.2]; exact hd) hdd sk aq rq).bind
    (w' := ⟨n * (K * 2 ^ (K - 1)), 0⟩ + Work.times n (⟨n * (K * 2 ^ (K - 1)), n * 2 ^ K⟩ + ⟨2 * n * (K * 2 ^ (K - 1)), n * 2 ^ K⟩)) fun q0 _ => ?_) (by work)
  refine .liftBind fun c1 hc1 => .liftBind fun tl _ => .liftBind fun x hx => ?_
  obtain rfl := Option.some.inj ((idx_eq_ok.mp hc1).symm.trans hq)
  refine (Poly.changeRepresentationC_ntt_costs pr hc (Poly.fromRows_dim hx)).bind fun y hy => ?_
  refine (Costs.cast (Costs.mapConst (Q := fun _ _ => True) fun z _ => ?_) (by rw [List.length_zipIdx, hg])).bindPure fun _ _ => trivial
  exact (Poly.mulBigC_costs pr hc hy _).bind fun p hp => SecretKey.encryptPolyC_costs pr hc sk hp.1 _ _

end Keys
end OnionPIR
