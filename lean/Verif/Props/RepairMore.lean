import Verif.Proofs.Repair
import Verif.Props.Unsafe
import Verif.Props.Reject
import Verif.Props.Levels
import Verif.Props.Default
import Verif.Props.Pvw
import Verif.Props.Pir
import Verif.Props.BfvExtra
/-
C80, continued: corrections for C19, C26, C45, C47, C55, C59, C63, C66 and C67. The definitions of `Repair` are not code of the repository (see
Verif/Model/Repair.lean).
-/
namespace OnionPIR
open Rg Poly Spec

variable {N t : Nat} {l : List Nat} {variance : Nat} {P : BfvParameters}

/-! ### The RNS scaler (C19, C66) -/

section scaler
variable {ls ld : List Nat} {src dst : RnsContext} {num den : Nat} {sf : ScalingFactor} {s : RnsScaler} {pr0 : Profile}

/-- C80, for C19: with the full product the scaler rounds to nearest for every number of moduli, every factor and every input. -/
theorem c80_scale (pr : Profile) (hs : RnsContext.new ls = .ok src) (hd : RnsContext.new ld = .ok dst) (hne : ls ≠ []) (hlen : ls.length < 2 ^ 62)
    (hsf : ScalingFactor.new num den = .ok sf) (hn : RnsScaler.new pr0 src dst sf = .ok s) {r : List Nat} (hr : Canonical ls r)
    {B : Nat} (hB : ∀ q ∈ ls, ls.length * q ≤ B) {outLen start : Nat} (ho : 0 < outLen) (hle : start + outLen ≤ ld.length) :
    ∃ x y : Int, Repair.scale pr s r outLen start = .ok (residuesOf ((ld.drop start).take outLen) y) ∧ HasResidues ls r x ∧
      2 ^ 191 * |x| ≤ ls.prod * (2 ^ 190 + B * max B (2 ^ 63)) ∧
      2 ^ 127 * |den * y - num * x| ≤ den * (2 ^ 126 + 2 * B) ∧ (num = den → y = x) := by
  obtain ⟨h1, rfl⟩ := RnsContext.new_wf hs
  obtain ⟨h2, rfl⟩ := RnsContext.new_wf hd
  unfold ScalingFactor.new at hsf
  simp only [bind_eq_ok, rassert_eq_ok] at hsf
  obtain ⟨_, hden, hsf⟩ := hsf
  cases hsf
  obtain ⟨s', e, hw, e1, e2, e3⟩ := RnsScaler.new_ok pr0 h1 h2 hne hlen (sf := ⟨num, den, decide (num = den)⟩) (by simp only; omega)
  rw [e] at hn
  cases hn
  subst e1 e2
  obtain ⟨x, y, v, e, r1, r2, r3, r4, -, -, rfl, r5⟩ := RnsScaler.scaleBy_spec pr hw hne e3 hr (Repair.scaleW_spec pr hw hr) hB ho hle
  refine ⟨x, y, ?_, r2, r3, ?_, r5⟩
  · rw [Repair.scale_eq pr s hr.1 (by omega) hle]
    exact r1
  · rw [show RnsScaler.sgn s.thetaGammaSign 0 = 0 by cases s.thetaGammaSign <;> rfl, mul_zero, sub_zero] at r4
    exact r4

/-- C80, for C66: with `assert!` the scaler stays in bounds in both build profiles, whatever the arguments. -/
theorem c80_scale_bounds (pr : Profile) (hs : RnsContext.new ls = .ok src) (hd : RnsContext.new ld = .ok dst) (hne : ls ≠ [])
    (hlen : ls.length < 2 ^ 62) (hsf : ScalingFactor.new num den = .ok sf) (hn : RnsScaler.new pr0 src dst sf = .ok s)
    (rests : List Nat) (outLen start : Nat) : Repair.scale pr s rests outLen start ≠ .error .bounds := by
  obtain ⟨h, rfl, rfl⟩ := RnsScaler.new_shape hs hd hne hlen hsf hn
  have hW : ∀ v, Free (Repair.scaleW pr s rests v) := by
    intro v
    unfold Repair.scaleW
    split
    · exact Free.ok _
    · refine Free.bind (RnsScaler.free_sumThetaOmega ..) fun _ => Free.bind ?_ fun _ => RnsScaler.free_roundW ..
      exact Free.bind (free_mulW ..) fun _ => Free.bind (free_mulW ..) fun _ => Free.bind (free_mulW ..) fun _ =>
        Free.bind (free_mulW ..) fun _ => Free.bind (free_addW ..) fun _ => Free.bind (free_addW ..) fun _ =>
        Free.bind (free_addW ..) fun _ => Free.bind (free_addW ..) fun _ => Free.bind (free_addW ..) fun _ =>
        Free.bind (free_addW ..) fun _ => Free.ok _
  have hR : ∀ (c : Prop) [Decidable c], Sat (fun _ => c) (rassert c) := by
    intro c _
    unfold rassert
    split
    · assumption
    · exact Panic.noConfusion
  refine Sat.ne (p := fun _ => True) ?_
  refine Sat.bind (hR _) fun _ h1 => Sat.bind (hR _) fun _ h2 => Sat.bind (hR _) fun _ h3 => ?_
  refine Free.bind (RnsScaler.free_scaleV ..) fun v => Free.bind (hW v) fun w => free_mapR _ fun i hi => ?_
  have hi := List.mem_range.mp hi
  exact RnsScaler.free_scaleOut pr h v w.1 w.2 (by omega) (by omega)

end scaler

/-- The run of `carryRun` with the corrected scaler. -/
def Ex.repairedCarryRun (pr : Profile) : Res (List Nat) := do
  let src ← RnsContext.new carryModuli
  let dst ← RnsContext.new [97]
  let sf ← ScalingFactor.new 3 5
  let s ← RnsScaler.new pr src dst sf
  Repair.scale pr s (carryModuli.map (· - 1)) 1 0

/-- The residues of `-1` for fourteen moduli of 62 bits, scaled by `3/5`: the corrected scaler returns `-1` modulo 97, the code returns 1. -/
example (pr : Profile) : Ex.repairedCarryRun pr = .ok [96] ∧ carryRun pr = .ok [1] := ⟨by cases pr <;> decide +kernel, (c19_dropped_carry pr).2.2.1⟩

/-- The hypotheses of `c80_scale` hold for these moduli. -/
example : ∃ src dst sf s, RnsContext.new carryModuli = .ok src ∧ RnsContext.new [97] = .ok dst ∧ ScalingFactor.new 3 5 = .ok sf ∧
    RnsScaler.new .debug src dst sf = .ok s ∧ Canonical carryModuli (carryModuli.map (· - 1)) ∧ (∀ q ∈ carryModuli, carryModuli.length * q ≤ 2 ^ 66) ∧
    Repair.scale .release s (carryModuli.map (· - 1)) 7 0 ≠ .error .bounds := by
  obtain ⟨src, hs⟩ := (c18_new_iff carryModuli).mpr ⟨by decide +kernel, by decide +kernel⟩
  obtain ⟨dst, hd⟩ := (c18_new_iff [97]).mpr ⟨by decide, by decide +kernel⟩
  obtain ⟨sf, s, h1, h2⟩ := c19_new_succeeds .debug hs hd (by decide) (by decide) (num := 3) (den := 5) (by norm_num)
  exact ⟨src, dst, sf, s, hs, hd, h1, h2, (c19_dropped_carry .debug).1, by decide +kernel,
    c80_scale_bounds .release hs hd (by decide) (by decide) h1 h2 _ _ _⟩

/-! ### Scaling by one (C26) -/

/-- C80, for C26: with the corrected count of common moduli, scaling by one is right for every two contexts of the same degree. -/
theorem c80_scale_one {l l' : List Nat} {src dst : RqContext} (hs : IsContext N l src) (hd : IsContext N l' dst)
    (hlen : l.length < 2 ^ 62) (pr : Profile) {n : Nat} (hn : 0 < n) {sf : ScalingFactor} (hsf : ScalingFactor.new n n = .ok sf)
    {B : Nat} (hB : ∀ q ∈ l, l.length * q ≤ B) {r : Representation} (hr : r ≠ .nttShoup) {a : Poly} {A : Nat → ℤ}
    (ha : Denotes src r A a) :
    ∃ s b C, Repair.rqScalerNew pr src dst sf = .ok s ∧ s.scale pr a = .ok b ∧ Denotes dst r C b ∧
      ∀ k, k < N → C k ≡ A k [ZMOD l.prod] ∧ 2 ^ 191 * |C k| ≤ l.prod * (2 ^ 190 + B * max B (2 ^ 63)) := by
  obtain ⟨K, rfl, h, rfl⟩ := RqP.ctx hs
  obtain ⟨K', hK', h', rfl⟩ := RqP.ctx hd
  have := Nat.pow_right_injective (le_refl 2) hK'
  subst this
  have hN : 0 < 2 ^ K := by positivity
  have : sf = ⟨n, n, decide (n = n)⟩ := by
    unfold ScalingFactor.new at hsf
    rw [rassert_ok (by omega)] at hsf
    exact (Except.ok.inj hsf).symm
  subst this
  rw [RqP.denotes_iff h hr] at ha
  subst ha
  obtain ⟨s, es, hb⟩ := Repair.rqScalerNew_ok h h' pr hlen (num := n) (den := n) hn
  obtain ⟨x, y, e1, e2, e3⟩ := hb.scale_enc h h' pr (Or.inl (dvd_mul_right _ _)) hB (ofCoeffs (2 ^ K) A)
  have hfin : ∀ k, k < 2 ^ K → y k ≡ A k [ZMOD src.moduli64.prod] ∧
      2 ^ 191 * |y k| ≤ src.moduli64.prod * (2 ^ 190 + B * max B (2 ^ 63)) := by
    intro k hk
    obtain ⟨g1, g2, -, g4⟩ := e1 k hk
    rw [g4 rfl]
    rw [cf_ofCoeffs hN _ hk] at g1
    exact ⟨(Int.modEq_of_dvd g1).symm, g2⟩
  have hden : Denotes dst r y (enc dst r (ofCoeffs (2 ^ K) y)) := by rw [RqP.denotes_iff h' hr]
  cases r with
  | nttShoup => exact absurd rfl hr
  | powerBasis => exact ⟨s, _, y, es, e2, hden, hfin⟩
  | ntt => exact ⟨s, _, y, es, e3, hden, hfin⟩

/-- The run of `notPrefixRun` with the corrected count. -/
def Ex.repairedPrefixRun (pr : Profile) : Res (List (List Nat)) := do
  let src ← RqContext.new .debug exSample [97, 17] 8 ⟨1, 1⟩
  let dst ← RqContext.new .debug exSample [113, 17] 8 ⟨1, 1⟩
  let sf ← ScalingFactor.new 1 1
  let s ← Repair.rqScalerNew pr src dst sf
  let a ← Poly.tryFromVecU64 pr src [100]
  let b ← s.scale pr a
  .ok b.coefficients

/-- The bases `[97, 17]` and `[113, 17]`: the constant 100 stays 100, where the code returns 3 (`c26_not_prefix`). -/
example (pr : Profile) : Ex.repairedPrefixRun pr = .ok [[100, 0, 0, 0, 0, 0, 0, 0], [15, 0, 0, 0, 0, 0, 0, 0]] := by
  cases pr <;> decide +kernel

/-! ### Linear operations on all components (C55) -/

theorem Repair.phase_zipWith_add (s : Rg N) : ∀ {fs gs : List (Rg N)}, fs.length = gs.length →
    phase s (List.zipWith (· + ·) fs gs) = phase s fs + phase s gs
  | [], [], _ => by simp [phase]
  | _ :: _, [], h => by simp at h
  | [], _ :: _, h => by simp at h
  | f :: fs, g :: gs, h => by
    simp only [List.zipWith_cons_cons, phase]
    rw [Repair.phase_zipWith_add s (by simpa using h)]; ring

theorem Repair.phase_zipWith_sub (s : Rg N) : ∀ {fs gs : List (Rg N)}, fs.length = gs.length →
    phase s (List.zipWith (· - ·) fs gs) = phase s fs - phase s gs
  | [], [], _ => by simp [phase]
  | _ :: _, [], h => by simp at h
  | [], _ :: _, h => by simp at h
  | f :: fs, g :: gs, h => by
    simp only [List.zipWith_cons_cons, phase]
    rw [Repair.phase_zipWith_sub s (by simpa using h)]; ring

theorem Repair.phase_map_mul (s g : Rg N) : ∀ (fs : List (Rg N)), phase s (fs.map (· * g)) = phase s fs * g
  | [] => by simp [phase]
  | f :: fs => by
    simp only [List.map_cons, phase]
    rw [Repair.phase_map_mul s g fs]; ring

/-- C80, for C55: the sum and the difference of ciphertexts with equally many components, however many, add and subtract the phases and
with them the messages. -/
theorem c80_add_sub (h : IsParams N t l variance P) (pr : Profile) {x y : BfvCipherText} {i : Nat} {fs gs : List (Rg N)} (hne : fs ≠ [])
    (hlen : fs.length = gs.length) (hx : IsCt P i fs x) (hy : IsCt P i gs y) (s : Rg N) :
    ∃ z w, Repair.add pr x y = .ok z ∧ Repair.sub pr x y = .ok w ∧
      IsCt P i (List.zipWith (· + ·) fs gs) z ∧ IsCt P i (List.zipWith (· - ·) fs gs) w ∧
      phase s (List.zipWith (· + ·) fs gs) = phase s fs + phase s gs ∧ phase s (List.zipWith (· - ·) fs gs) = phase s fs - phase s gs ∧
      ∀ m1 m2 V1 V2, Encodes t (levelQ l i) m1 (phase s fs) V1 → Encodes t (levelQ l i) m2 (phase s gs) V2 →
        Encodes t (levelQ l i) (m1 + m2) (phase s (List.zipWith (· + ·) fs gs)) (V1 + V2) ∧
        Encodes t (levelQ l i) (m1 - m2) (phase s (List.zipWith (· - ·) fs gs)) (V1 + V2) := by
  have hp1 := Repair.phase_zipWith_add s hlen
  have hp2 := Repair.phase_zipWith_sub s hlen
  obtain ⟨K, ext, rfl, hw, rfl, rfl, -⟩ := BfvP.params h
  obtain ⟨L, hL⟩ := BfvP.isCt_level hw hne hx
  obtain ⟨x1, x2, x3⟩ := (BfvP.isCt_iff hL _ _).mp hx
  obtain ⟨y1, y2, y3⟩ := (BfvP.isCt_iff hL _ _).mp hy
  have key : ∀ (F : Poly → Poly → Res Poly) (o : Rg (2 ^ K) → Rg (2 ^ K) → Rg (2 ^ K)),
      (∀ f g, F (enc L.qCtx .ntt f) (enc L.qCtx .ntt g) = .ok (enc L.qCtx .ntt (o f g))) → ∀ fs gs : List (Rg (2 ^ K)),
      zipR F (fs.map (enc L.qCtx .ntt)) (gs.map (enc L.qCtx .ntt)) = .ok ((List.zipWith o fs gs).map (enc L.qCtx .ntt)) := by
    intro F o hF fs
    induction fs with
    | nil => intro gs; cases gs <;> rfl
    | cons f fs ih =>
      intro gs
      cases gs with
      | nil => rfl
      | cons g gs => simp only [List.map_cons, zipR, hF, res_ok_bind, ih, List.zipWith_cons_cons]
  have ka := key (Repair.polyAdd pr) (· + ·) (fun f g => by
    unfold Repair.polyAdd; rw [rassert_ok (show (enc L.qCtx .ntt f).context = (enc L.qCtx .ntt g).context from rfl), res_ok_bind, add_enc hL.wf.ctx]) fs gs
  have ks := key (Repair.polySub pr) (· - ·) (fun f g => by
    unfold Repair.polySub; rw [rassert_ok (show (enc L.qCtx .ntt f).context = (enc L.qCtx .ntt g).context from rfl), res_ok_bind, sub_enc hL.wf.ctx]) fs gs
  refine ⟨⟨P, (List.zipWith (· + ·) fs gs).map (enc L.qCtx .ntt), i⟩, ⟨P, (List.zipWith (· - ·) fs gs).map (enc L.qCtx .ntt), i⟩, ?_, ?_,
    (BfvP.isCt_iff hL _ _).mpr ⟨rfl, rfl, rfl⟩, (BfvP.isCt_iff hL _ _).mpr ⟨rfl, rfl, rfl⟩, hp1, hp2, fun m1 m2 V1 V2 h1 h2 => ⟨?_, ?_⟩⟩
  · unfold Repair.add
    rw [rassert_ok (x1.trans y1.symm), res_ok_bind, rassert_ok (x2.trans y2.symm), res_ok_bind, rassert_ok (by rw [x3, y3]; simpa using hlen), res_ok_bind,
      x3, y3, ka, x1, x2]
    rfl
  · unfold Repair.sub
    rw [rassert_ok (x1.trans y1.symm), res_ok_bind, rassert_ok (x2.trans y2.symm), res_ok_bind, rassert_ok (by rw [x3, y3]; simpa using hlen), res_ok_bind,
      x3, y3, ks, x1, x2]
    rfl
  · rw [hp1]; exact BfvP.Encodes.add (by positivity) h1 h2
  · rw [hp2]; exact BfvP.Encodes.sub (by positivity) h1 h2

/-- C80, for C55: the products of a ciphertext with any number of components by an integer, a polynomial and a plaintext multiply the phase. -/
theorem c80_mul_linear (h : IsParams N t l variance P) (pr : Profile) {x : BfvCipherText} {i : Nat} {fs : List (Rg N)} (hne : fs ≠ [])
    (hx : IsCt P i fs x) (n : Nat) {p : Poly} {g : Rg N} (hp : PolyAt P i g p) {pt : Plaintext} (hl : pt.level = i)
    (hlen : pt.values.length ≤ N) (hv : ∀ a ∈ pt.values, a < 2 ^ 64) (s : Rg N) :
    ∃ z1 z2 z3, Repair.mulBig pr x n = .ok z1 ∧ Repair.mulPoly pr x p = .ok z2 ∧ Repair.mulPlain pr x pt = .ok z3 ∧
      IsCt P i (fs.map (· * ((n : ℤ) : Rg N))) z1 ∧ IsCt P i (fs.map (· * g)) z2 ∧ IsCt P i (fs.map (· * msgRing N pt.values)) z3 ∧
      (∀ g : Rg N, phase s (fs.map (· * g)) = phase s fs * g) ∧
      (∀ m V, Encodes t (levelQ l i) m (phase s fs) V →
        Encodes t (levelQ l i) (m * ((n : ℤ) : Rg N)) (phase s (fs.map (· * ((n : ℤ) : Rg N)))) (n * V)) ∧
      ∀ (g : Rg N) m V B, Encodes t (levelQ l i) m (phase s fs) V → Bdd B g → Encodes t (levelQ l i) (m * g) (phase s (fs.map (· * g))) (N * V * B) := by
  have hph := fun g : Rg N => Repair.phase_map_mul s g fs
  obtain ⟨K, ext, rfl, hw, rfl, rfl, -⟩ := BfvP.params h
  obtain ⟨L, hL⟩ := BfvP.isCt_level hw hne hx
  obtain ⟨x1, x2, x3⟩ := (BfvP.isCt_iff hL _ _).mp hx
  have key : ∀ g : Rg (2 ^ K), mapR (fun c => Repair.polyMul pr c (enc L.qCtx .ntt g)) (fs.map (enc L.qCtx .ntt)) =
      .ok ((fs.map (· * g)).map (enc L.qCtx .ntt)) := by
    intro g
    rw [List.map_map]
    refine OnionPIR.mapR_map fun f _ => ?_
    unfold Repair.polyMul
    rw [rassert_ok (show (enc L.qCtx .ntt f).context = (enc L.qCtx .ntt g).context from rfl), res_ok_bind, mul_enc hL.wf.ctx]
    rfl
  have kb : mapR (fun c => c.mulBig pr n) (fs.map (enc L.qCtx .ntt)) = .ok ((fs.map (· * ((n : ℤ) : Rg (2 ^ K)))).map (enc L.qCtx .ntt)) := by
    rw [List.map_map]
    refine OnionPIR.mapR_map fun f _ => ?_
    rw [mulBig_enc hL.wf.ctx]
    rfl
  obtain rfl := (BfvP.polyAt_iff hL _ _).mp hp
  have mk : ∀ g : Rg (2 ^ K), IsCt P i (fs.map (· * g)) ⟨P, (fs.map (· * g)).map (enc L.qCtx .ntt), i⟩ := fun g =>
    (BfvP.isCt_iff hL _ _).mpr ⟨rfl, rfl, rfl⟩
  refine ⟨_, _, _, ?_, ?_, ?_, mk _, mk _, mk _, hph, ?_, fun g m V B h1 h2 => ?_⟩
  · unfold Repair.mulBig
    rw [x3, kb, res_ok_bind, x1, x2]
  · unfold Repair.mulPoly
    rw [rassert_ok (show (enc L.qCtx .ntt g).representation = .ntt from rfl), res_ok_bind, x3, key, res_ok_bind, x1, x2]
  · unfold Repair.mulPlain
    rw [rassert_ok (x2.trans hl.symm), res_ok_bind, x1, x2, idx_of hL.q, res_ok_bind, tryFromVecU64_ok hL.wf.ctx pr hlen hv, res_ok_bind,
      toNtt_enc hL.wf.ctx, res_ok_bind, x3, key, res_ok_bind, BfvP.msgRing_eq]
  · rintro m V ⟨v, w, hv, he⟩
    have hb := hv.int_mul (by positivity) (n : ℤ)
    rw [abs_of_nonneg (by positivity)] at hb
    refine ⟨((n : ℤ) : Rg (2 ^ K)) * v, w * ((n : ℤ) : Rg (2 ^ K)), hb, ?_⟩
    rw [hph, ← mul_assoc, he]
    ring
  · rw [hph]
    exact BfvP.Encodes.mul (by positivity) h1 h2

/-- A ciphertext with a third component that is not zero, doubled by adding it to itself: decryption gives twice the message. The product by
three is in the domain as well. -/
example : ∃ P sk x z pt w, IsParams 8 17 Ex.mods 10 P ∧ IsKey P sk ∧ x.cts.length = 3 ∧ Repair.add .debug x x = .ok z ∧
    sk.decrypt .debug z = .ok pt ∧ pt.values = residues 17 (msgRing 8 [3, 1, 16, 0, 2, 0, 0, 9] + msgRing 8 [3, 1, 16, 0, 2, 0, 0, 9]) ∧
    Repair.mulBig .debug x 3 = .ok w ∧ w.cts.length = 3 := by
  obtain ⟨P, sk, ct, f0, f1, h, hk, -, hct, he⟩ := Ex.setup
  set s := keyRing 8 sk with hs
  obtain ⟨p0, h0⟩ := c33_exists_poly h (i := 0) (by decide) (f0 - s * s)
  obtain ⟨p1, h1⟩ := c33_exists_poly h (i := 0) (by decide) f1
  obtain ⟨p2, h2⟩ := c33_exists_poly h (i := 0) (by decide) (1 : Rg 8)
  have hx : IsCt P 0 [f0 - s * s, f1, 1] ⟨P, [p0, p1, p2], 0⟩ := ⟨rfl, rfl, .cons h0 (.cons h1 (.cons h2 .nil))⟩
  have hph : phase s [f0 - s * s, f1, 1] = phase s [f0, f1] := by simp only [phase]; ring
  obtain ⟨z, -, h3, -, h4, -, -, -, h5⟩ := c80_add_sub h .debug (by simp) rfl hx hx s
  have he2 := (h5 _ _ _ _ (by rw [hph]; exact he) (by rw [hph]; exact he)).1
  obtain ⟨pt, h6, -, -, h7⟩ := c30_decrypt h hk .debug (by simp) h4 (by decide) he2 (by rw [Ex.levelQ_mods0]; norm_num)
  obtain ⟨w, -, -, h8, -, -, h9, -⟩ := c80_mul_linear h .debug (by simp) hx 3 h1 (pt := ⟨P, 0, .poly, [2, 1]⟩) rfl (by simp) (by simp) s
  refine ⟨P, sk, _, z, pt, w, h, hk, rfl, h3, h6, h7, h8, ?_⟩
  have := h9.2.2.length_eq
  simpa using this.symm

/-! ### Contexts and parameters are compared (C67) -/

/-- C80, for C67: the corrected operations on polynomials succeed on operands of one context only, and then they are the operations of the code. -/
theorem c80_contexts (pr : Profile) {a b z : Poly} (h : Repair.polyAdd pr a b = .ok z ∨ Repair.polySub pr a b = .ok z ∨ Repair.polyMul pr a b = .ok z) :
    a.context = b.context ∧ z.context = a.context ∧ a.representation = .ntt ∧ b.representation = .ntt ∧
      (Repair.polyAdd pr a b = a.add pr b ∧ Repair.polySub pr a b = a.sub pr b ∧ Repair.polyMul pr a b = a.mul pr b) := by
  have hc : a.context = b.context := by
    rcases h with h | h | h
    all_goals
      first | unfold Repair.polyAdd at h | unfold Repair.polySub at h | unfold Repair.polyMul at h
      simp only [bind_eq_ok, rassert_eq_ok] at h
      exact h.choose_spec.1
  have e : Repair.polyAdd pr a b = a.add pr b ∧ Repair.polySub pr a b = a.sub pr b ∧ Repair.polyMul pr a b = a.mul pr b := by
    refine ⟨?_, ?_, ?_⟩
    · unfold Repair.polyAdd; rw [rassert_ok hc, res_ok_bind]
    · unfold Repair.polySub; rw [rassert_ok hc, res_ok_bind]
    · unfold Repair.polyMul; rw [rassert_ok hc, res_ok_bind]
  rw [e.1, e.2.1, e.2.2] at h
  obtain ⟨h1, h2, -, h3⟩ := c67_poly_partial h
  exact ⟨hc, h3, h1, h2, e⟩

/-- C80, for C67: the corrected multiplication, decryption and external product succeed on objects of one parameter set only, and then they
are the functions they correct. -/
theorem c80_params (pr : Profile) (x : BfvCipherText) :
    (∀ y z, Repair.mulChecked pr x y = .ok z ↔ x.params = y.params ∧ Repair.mul pr x y = .ok z) ∧
    (∀ (sk : SecretKey) z, Repair.decrypt pr sk x = .ok z ↔ x.params = sk.params ∧ sk.decrypt pr x = .ok z) ∧
    ∀ (g : RgswCt) z, Repair.externalProduct pr g x = .ok z ↔
      x.params = g.ksk0.params ∧ x.params = g.ksk1.params ∧ g.externalProduct pr x = .ok z := by
  unfold Repair.mulChecked Repair.decrypt Repair.externalProduct
  simp only [bind_eq_ok, rassert_eq_ok, exists_const, exists_and_left, implies_true, and_self]

/-- The operands of `mixedRun` with the corrected addition. -/
def Ex.repairedMixedRun (pr : Profile) : Res Poly := do
  let c ← RqContext.new .debug exSample [17, 97] 8 ⟨1, 1⟩
  let d ← RqContext.new .debug exSample [17] 8 ⟨1, 1⟩
  let a ← Poly.tryFromVecU64 pr c [5]
  let a ← a.changeRepresentation pr .ntt
  let b ← Poly.tryFromVecU64 pr d [7]
  let b ← b.changeRepresentation pr .ntt
  Repair.polyAdd pr a b

/-- The sum of `c67_contexts_not_compared` is refused. -/
example (pr : Profile) : (match Ex.repairedMixedRun pr with | .error .assert => true | _ => false) = true := by cases pr <;> decide +kernel

/-- Decryption of an actual ciphertext is accepted. -/
example : ∃ P sk ct pt, IsParams 8 17 Ex.mods 10 P ∧ Repair.decrypt .debug sk ct = .ok pt ∧
    pt.values = residues 17 (msgRing 8 [3, 1, 16, 0, 2, 0, 0, 9]) := by
  obtain ⟨P, sk, ct, f0, f1, h, hk, -, hct, he⟩ := Ex.setup
  obtain ⟨pt, h1, -, -, h2⟩ := c30_decrypt h hk .debug (by simp) hct (by decide) he (by rw [Ex.levelQ_mods0]; norm_num)
  exact ⟨P, sk, ct, pt, h, ((c80_params .debug ct).2.1 sk pt).mpr ⟨hct.1.trans hk.1.symm, h1⟩, h2⟩

/-! ### Key switching between levels (C59) -/

/-- C80, for C59: a key that the corrected constructor returns has `ksk_level ≤ ct_level`, and it switches polynomials of the ciphertext level
correctly; for `ksk_level ≤ ct_level` the constructor succeeds. -/
theorem c80_ksk (h : IsParams N t l variance P) {sk : SecretKey} (hk : IsKey P sk) (pr : Profile) (hv1 : 1 ≤ variance)
    (hv2 : variance ≤ 16) {i j : Nat} (hi : i < l.length) {src : Rg N} {p : Poly} (hp : PolyAt P j src p)
    {aTape : Nat → Nat → Nat → Nat} (ha : ∀ k, TapeAt l j (aTape k)) {rng : Nat → Nat → Nat} (hr : ∀ j i, rng j i < 2 ^ 64) :
    (j ≤ i → ∃ k, Repair.kskNew pr sk p i j aTape rng = .ok k) ∧ (i < j → Repair.kskNew pr sk p i j aTape rng = .error .assert) ∧
    ∀ k, Repair.kskNew pr sk p i j aTape rng = .ok k → ∀ (pr' : Profile) (f : Rg N) (pf : Poly), PowerAt P i f pf →
      ∃ p0 p1, ∃ r0 r1 E : Rg N, k.keySwitch pr' pf = .ok (p0, p1) ∧ PolyAt P i r0 p0 ∧ PolyAt P i r1 p1 ∧
        Bdd (switchNoise N l i * (2 * variance)) E ∧ Cong (levelQ l i) (r0 + r1 * keyRing N sk) (f * src + E) := by
  by_cases hij : j ≤ i
  · obtain ⟨k, h1, h2⟩ := c59_switch_partial h hk pr hv1 hv2 hij hi hp ha hr
    have e : Repair.kskNew pr sk p i j aTape rng = .ok k := by
      unfold Repair.kskNew
      rw [rassert_ok hij, res_ok_bind, h1]
    refine ⟨fun _ => ⟨k, e⟩, fun h => absurd hij (by omega), fun k' hk' => ?_⟩
    rw [e] at hk'
    cases hk'
    exact h2
  · have e : Repair.kskNew pr sk p i j aTape rng = .error .assert := by
      unfold Repair.kskNew
      rw [rassert_fail hij]
      rfl
    refine ⟨fun h => absurd h hij, fun _ => e, fun k' hk' => ?_⟩
    rw [e] at hk'
    cases hk'

/-- Level 0 to level 1 is accepted, level 1 to level 0, where the code gives a wrong phase, is refused. -/
example : ∃ P sk p q k, IsParams 8 17 Ex.mods 10 P ∧ IsKey P sk ∧ PolyAt P 0 (msgRing 8 [3, 1]) p ∧ PolyAt P 1 (msgRing 8 [3, 1]) q ∧
    Repair.kskNew .debug sk p 1 0 (fun _ _ _ => 0) (fun _ i => i % 1000) = .ok k ∧
    Repair.kskNew .debug sk q 0 1 (fun _ _ _ => 0) (fun _ i => i % 1000) = .error .assert := by
  obtain ⟨P, sk, h, hk, -⟩ := Ex.setup_key
  obtain ⟨p, hp⟩ := c33_exists_poly h (i := 0) (by decide) (msgRing 8 [3, 1])
  obtain ⟨q, hq⟩ := c33_exists_poly h (i := 1) (by decide) (msgRing 8 [3, 1])
  obtain ⟨k, h1⟩ := (c80_ksk h hk .debug (by norm_num) (by norm_num) (i := 1) (by decide) hp Ex.tapes (fun _ => Ex.wordTape)).1 (by norm_num)
  exact ⟨P, sk, p, q, k, h, hk, hp, hq, h1,
    (c80_ksk h hk .debug (by norm_num) (by norm_num) (i := 0) (by decide) hq Ex.tapes (fun _ => Ex.wordTape)).2.1 (by norm_num)⟩

/-! ### Default parameters (C63, C47) -/

/-- C80, for C63: the corrected `default` succeeds for every power-of-two degree from 8 to 131072, with a prime plaintext modulus of 20 bits that
supports batching. -/
theorem c80_default (pr : Profile) {K n : Nat} (hK : 3 ≤ K) (hK2 : K ≤ 17) (hn : 1 ≤ n) (hn2 : n ≤ 27)
    {sample : Nat → Nat → Nat} (hs : ∀ p i, 0 < p → sample p i < p)
    (hgood : ∀ q, q.Prime → q % (2 * 2 ^ K) = 1 → ∃ i, i < 100 ∧ sample q i ^ ((q - 1) / 2) % q = q - 1) (bd : BitDecomposition) :
    ∃ P l t, Repair.default pr sample n (2 ^ K) bd = .ok P ∧ IsParams (2 ^ K) t l 10 P ∧ t.Prime ∧ t % (2 * 2 ^ K) = 1 ∧ 786433 ≤ t ∧ t < 2 ^ 20 ∧
      l.length = n ∧ l.Nodup ∧ ∀ q ∈ l, q ∈ friendly (2 ^ K) 62 := by
  have hp : (786433 : Nat).Prime := by norm_num
  have hmod : 786433 % (2 * 2 ^ K) = 1 := by interval_cases K <;> norm_num
  have h2K : 1 ≤ 2 ^ K := Nat.one_le_two_pow
  have h2K' : 2 ^ K ≤ 2 ^ 17 := Nat.pow_le_pow_right (by norm_num) hK2
  obtain ⟨o, ho, hspec⟩ := generatePrime_ok pr (nb := 20) (modulo := 2 * 2 ^ K) (ub := 2 ^ 20) (by norm_num) (by norm_num) (by omega)
    (by norm_num) le_rfl
  obtain ⟨t, ht⟩ : ∃ t, IsGreatest {p : Nat | p.Prime ∧ 2 ^ (20 - 1) ≤ p ∧ p < 2 ^ 20 ∧ p % (2 * 2 ^ K) = 1 ∧ p < 2 ^ 20} t := by
    have hfin : Set.Finite {p : Nat | p.Prime ∧ 2 ^ (20 - 1) ≤ p ∧ p < 2 ^ 20 ∧ p % (2 * 2 ^ K) = 1 ∧ p < 2 ^ 20} :=
      (Set.finite_Iio (2 ^ 20)).subset fun p hp => hp.2.2.1
    have hne : Set.Nonempty {p : Nat | p.Prime ∧ 2 ^ (20 - 1) ≤ p ∧ p < 2 ^ 20 ∧ p % (2 * 2 ^ K) = 1 ∧ p < 2 ^ 20} :=
      ⟨786433, hp, by norm_num, by norm_num, hmod, by norm_num⟩
    obtain ⟨t, h1, h2⟩ := hfin.exists_maximal hne
    exact ⟨t, h1, fun p hp => by
      by_contra hlt
      exact hlt (h2 hp (by omega))⟩
  have hle : 786433 ≤ t := ht.2 ⟨hp, by norm_num, by norm_num, hmod, by norm_num⟩
  obtain ⟨t1, -, t3, t4, -⟩ := ht.1
  obtain ⟨P, l, h1, h2, h3, h4⟩ := c63_generate_then_new pr hK (by omega) t1 (by omega) t4 hn (by omega)
    (by have := Ex.friendly_card (K := K) (by omega); omega) hs hgood 10 bd
  refine ⟨P, l, t, ?_, h3, t1, t4, hle, t3, h4⟩
  unfold Repair.default
  rw [h1, res_ok_bind, show unwrapR (some l) = .ok l from rfl, res_ok_bind, mulW_ok (by omega), res_ok_bind, ho, (hspec t).mpr ht, res_ok_bind,
    show unwrapR (some t) = .ok t from rfl, res_ok_bind, h2]

/-- Degree 4096 with three moduli: the code panics (`c63_default_panics`), the corrected copy does not. -/
example : ∃ P l t e, Repair.default .debug Ex.goodSample 3 4096 ⟨4, 8⟩ = .ok P ∧ IsParams 4096 t l 10 P ∧ l.length = 3 ∧
    BfvParameters.default .debug Ex.goodSample 3 4096 ⟨4, 8⟩ = .error e := by
  obtain ⟨P, l, t, h1, h2, -, -, -, -, h3, -⟩ := c80_default .debug (K := 12) (n := 3) (by norm_num) (by norm_num) (by norm_num)
    (by norm_num) Ex.goodSample_lt (fun q hq hc => ⟨0, by norm_num, Ex.goodSample_good hq (by rintro rfl; norm_num at hc)⟩) ⟨4, 8⟩
  obtain ⟨e, he⟩ := c63_default_panics .debug Ex.goodSample 3 ⟨4, 8⟩
  exact ⟨P, l, t, e, h1, h2, h3, he⟩

/-- C80, for C47: the correction of the default parameters of PVW changes nothing but the modulus. -/
theorem c80_pvw_default_params : Repair.pvwDefault = { PvwParams.default with q := 786433 } := rfl

/-- C80, for C47: with `q = 786433` PVW decryption returns the bits for every randomness. -/
theorem c80_pvw_default (pr : Profile) {skTape aTape rng : Nat → Nat → Nat} {e : Nat → Nat} (h : PvwChoices Repair.pvwDefault skTape aTape rng e)
    {msg : List Nat} (hlen : msg.length = 4) (hbit : ∀ x ∈ msg, x < 2) : pvwRun pr Repair.pvwDefault skTape aTape rng e msg = .ok msg :=
  c46_always pr h hlen hbit (by decide) (by decide)

/-- The randomness of `c47_default_wrong` meets the hypothesis. -/
example : PvwChoices Repair.pvwDefault (fun _ _ => 0) (fun _ _ => 0) (fun _ _ => 0x0F0F0F0F0F0F0F0F) (fun m => if m < 4096 then 1 else 0) :=
  ⟨by decide, by decide, by decide, by decide, fun _ _ => by decide, fun _ _ => by decide, fun _ _ => by norm_num,
    fun m => by split_ifs <;> omega⟩

/-! ### The number of ciphertexts of a query (C45) -/

theorem Repair.noOfCtsLoop_ends (pr : Profile) {dim : Nat} (hd : 2 ≤ dim) : ∀ (fuel len count : Nat), len < 2 ^ (fuel + 1) →
    Server.noOfCtsLoop pr dim fuel len count ≠ .error .diverge
  | 0, len, count, h => by
    unfold Server.noOfCtsLoop
    rw [if_neg (by omega)]
    exact fun h => by cases h
  | fuel + 1, len, count, h => by
    unfold Server.noOfCtsLoop
    split_ifs with h1
    · rw [divR_ok (by omega), res_ok_bind]
      have hl : len / dim < 2 ^ (fuel + 1) := by
        refine lt_of_le_of_lt (Nat.div_le_div_left hd (by norm_num)) ?_
        rw [Nat.div_lt_iff_lt_mul (by norm_num), ← pow_succ]
        exact h
      cases hc : addW 64 pr count dim with
      | ok c => exact Repair.noOfCtsLoop_ends pr hd fuel _ c hl
      | error e =>
        intro he
        cases pr <;> unfold addW fit at hc <;> split_ifs at hc <;> cases hc <;> cases he
    · exact fun h => by cases h

/-- C80, for C45: the corrected `no_of_cts` ends for all dimensions and databases, and where the count fits a word it is the right one or the
dimension is refused. -/
theorem c80_no_of_cts (pr : Profile) (s : Server) (hlen : s.db.length < 2 ^ 63) {fuel : Nat} (hfuel : 62 ≤ fuel) :
    Repair.noOfCts pr s fuel ≠ .error .diverge ∧
    (0 < s.firstDim → s.firstDim + s.dim * 62 < 2 ^ 64 →
      (∃ k, Repair.noOfCts pr s fuel = .ok (s.firstDim + s.dim * k) ∧ s.db.length / s.firstDim / s.dim ^ k ≤ 1 ∧
        ∀ j, j < k → 1 < s.db.length / s.firstDim / s.dim ^ j) ∨
      (1 < s.db.length / s.firstDim ∧ s.dim ≤ 1 ∧ Repair.noOfCts pr s fuel = .error .assert)) := by
  have small : ∀ fuel len count, len ≤ 1 → Server.noOfCtsLoop pr s.dim fuel len count = .ok count := by
    intro fuel len count h
    cases fuel <;> unfold Server.noOfCtsLoop <;> rw [if_neg (by omega)]
  constructor
  · unfold Repair.noOfCts
    cases hc : addW 64 pr 0 s.firstDim with
    | error e =>
      intro he
      cases pr <;> unfold addW fit at hc <;> split_ifs at hc <;> cases hc <;> cases he
    | ok c =>
      rw [res_ok_bind]
      by_cases hf : s.firstDim = 0
      · rw [hf]
        intro he
        simp [divR, bind, Except.bind] at he
      · rw [divR_ok hf, res_ok_bind]
        by_cases hd : s.db.length / s.firstDim ≤ 1 ∨ 1 < s.dim
        · rw [rassert_ok hd, res_ok_bind]
          rcases hd with hd | hd
          · rw [small _ _ _ hd]; exact fun h => by cases h
          · refine Repair.noOfCtsLoop_ends pr hd _ _ _ (lt_of_le_of_lt (Nat.div_le_self _ _) (lt_of_lt_of_le hlen ?_))
            exact Nat.pow_le_pow_right (by norm_num) (by omega)
        · rw [rassert_fail hd]
          intro he
          cases he
  · intro hf hfd
    by_cases h1 : s.db.length / s.firstDim ≤ 1
    · refine Or.inl ⟨0, ?_, by simpa using h1, by omega⟩
      unfold Repair.noOfCts
      rw [addW_ok (by omega), res_ok_bind, divR_ok (by omega), res_ok_bind, rassert_ok (Or.inl h1), res_ok_bind, small _ _ _ h1]
      simp
    · by_cases hd : 2 ≤ s.dim
      · obtain ⟨k, e, hk⟩ := c45_no_of_cts pr s hf hd hlen hfd hfuel
        refine Or.inl ⟨k, ?_, hk⟩
        rw [← e]
        unfold Repair.noOfCts Server.noOfCts
        rw [addW_ok (by omega), res_ok_bind, divR_ok (by omega), res_ok_bind, res_ok_bind, res_ok_bind, rassert_ok (Or.inr (by omega)), res_ok_bind]
      · refine Or.inr ⟨by omega, by omega, ?_⟩
        unfold Repair.noOfCts
        rw [addW_ok (by omega), res_ok_bind, divR_ok (by omega), res_ok_bind, rassert_fail (by omega)]
        rfl

/-- 64 rows with dimension 1: the code runs forever (`c45_diverges_release`), the corrected copy panics; with dimension 4 it counts 12. -/
example (p : Plaintext) : Repair.noOfCts .release (Server.mk 4 1 (List.replicate 64 p) []) 62 = .error .assert ∧
    Repair.noOfCts .release (Server.mk 4 4 (List.replicate 64 p) []) 62 = .ok 12 := by
  unfold Repair.noOfCts
  simp only [List.length_replicate]
  exact ⟨rfl, rfl⟩

/-- `c80_contexts` for the sum of a polynomial with itself. -/
example : ∃ a z : Poly, Repair.polyAdd .debug a a = .ok z ∧ z.context = a.context ∧ a.representation = .ntt := by
  obtain ⟨c, hc⟩ := exists_context
  obtain ⟨a, ha⟩ : ∃ p, Denotes c .ntt (cf (xx : Rg 8)) p := by
    obtain ⟨K, hK, hw, -⟩ := RqP.ctx hc
    obtain rfl : K = 3 := Nat.pow_right_injective le_rfl (show 2 ^ K = 2 ^ 3 by omega)
    exact ⟨_, RqP.denotes_enc hw (by simp) _ fun _ _ => rfl⟩
  obtain ⟨z, h1, -⟩ := c21_add hc .debug ha ha
  have h2 : Repair.polyAdd .debug a a = .ok z := by unfold Repair.polyAdd; rw [rassert_ok rfl]; exact h1
  have h3 := c80_contexts .debug (Or.inl h2)
  exact ⟨a, z, h2, h3.2.1, h3.2.2.1⟩

/-- C80: the corrected scaler counts the longest common prefix of the two lists of moduli: all positions before the count agree, and the position
after them, if both lists have it, does not. -/
theorem c80_common_prefix (a b : List Nat) :
    (∀ i, i < Repair.commonPrefix a b → i < a.length ∧ a[i]? = b[i]?) ∧
      (Repair.commonPrefix a b < a.length → Repair.commonPrefix a b < b.length → a[Repair.commonPrefix a b]? ≠ b[Repair.commonPrefix a b]?) := by
  induction a generalizing b with
  | nil => simp [Repair.commonPrefix]
  | cons x a ih =>
    match b with
    | [] => simp [Repair.commonPrefix]
    | y :: b =>
      unfold Repair.commonPrefix
      by_cases hxy : x = y
      · rw [if_pos hxy]
        refine ⟨fun i hi => ?_, fun h1 h2 => ?_⟩
        · cases i with
          | zero => simp [hxy]
          | succ i =>
            obtain ⟨h1, h2⟩ := (ih b).1 i (by omega)
            exact ⟨by simpa using h1, by simpa using h2⟩
        · have := (ih b).2 (by simpa using h1) (by simpa using h2)
          simpa using this
      · rw [if_neg hxy]
        exact ⟨fun i hi => absurd hi (Nat.not_lt_zero _), fun _ _ => by simpa using hxy⟩

/-- Equal positions that are not a prefix are not counted. -/
example : Repair.commonPrefix [17, 97, 113] [17, 97, 193, 113] = 2 ∧ Repair.commonPrefix [97, 17] [113, 17] = 0 := by decide

end OnionPIR
