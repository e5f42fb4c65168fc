import Verif.Model.Repair
import Verif.Proofs.RqScaler
/- Lemmas about the corrected product `v * theta_gamma` and the corrected count of common moduli. -/
namespace OnionPIR
namespace Repair
open RnsScaler

theorem vtg_arith {A B C D : Nat} (a1 : A ≤ (2 ^ 64 - 1) * (2 ^ 64 - 1)) (a2 : B ≤ (2 ^ 64 - 1) * (2 ^ 64 - 1))
    (a3 : C ≤ (2 ^ 64 - 1) * (2 ^ 64 - 1)) (a4 : D ≤ (2 ^ 64 - 1) * (2 ^ 64 - 1))
    (h : A + B * 2 ^ 64 + C * 2 ^ 64 + D * 2 ^ 128 < 2 ^ 256) :
    A % 2 ^ 64 + (A / 2 ^ 64 + B % 2 ^ 64 + C % 2 ^ 64) % 2 ^ 64 * 2 ^ 64 +
        (B / 2 ^ 64 + (A / 2 ^ 64 + B % 2 ^ 64 + C % 2 ^ 64) / 2 ^ 64 + C / 2 ^ 64 + D % 2 ^ 64) % 2 ^ 64 * 2 ^ 128 +
        ((B / 2 ^ 64 + (A / 2 ^ 64 + B % 2 ^ 64 + C % 2 ^ 64) / 2 ^ 64 + C / 2 ^ 64 + D % 2 ^ 64) / 2 ^ 64 + D / 2 ^ 64) % 2 ^ 64 * 2 ^ 192 =
      A + B * 2 ^ 64 + C * 2 ^ 64 + D * 2 ^ 128 := by
  omega

theorem vThetaGamma_ok (pr : Profile) {v lo hi : Nat} (hlo : lo < 2 ^ 64) (hhi : hi < 2 ^ 64) (hv : v < 2 ^ 128) :
    ∃ u, vThetaGamma pr v lo hi = .ok u ∧ u.WF ∧ u.val = v * (lo + hi * 2 ^ 64) := by
  have hvl : v % 2 ^ 64 < 2 ^ 64 := Nat.mod_lt _ (by norm_num)
  have hvh : v / 2 ^ 64 < 2 ^ 64 := by omega
  have a1 : (v % 2 ^ 64) * lo ≤ (2 ^ 64 - 1) * (2 ^ 64 - 1) := Nat.mul_le_mul (by omega) (by omega)
  have a2 : (v % 2 ^ 64) * hi ≤ (2 ^ 64 - 1) * (2 ^ 64 - 1) := Nat.mul_le_mul (by omega) (by omega)
  have a3 : (v / 2 ^ 64) * lo ≤ (2 ^ 64 - 1) * (2 ^ 64 - 1) := Nat.mul_le_mul (by omega) (by omega)
  have a4 : (v / 2 ^ 64) * hi ≤ (2 ^ 64 - 1) * (2 ^ 64 - 1) := Nat.mul_le_mul (by omega) (by omega)
  unfold vThetaGamma
  simp only [Nat.shiftRight_eq_div_pow]
  rw [mulW_ok (by omega), res_ok_bind, mulW_ok (by omega), res_ok_bind, mulW_ok (by omega), res_ok_bind, mulW_ok (by omega),
    res_ok_bind, addW_ok (by omega), res_ok_bind, addW_ok (by omega), res_ok_bind, addW_ok (by omega), res_ok_bind,
    addW_ok (by omega), res_ok_bind, addW_ok (by omega), res_ok_bind, addW_ok (by omega), res_ok_bind]
  have hval : v * (lo + hi * 2 ^ 64) = v % 2 ^ 64 * lo + v % 2 ^ 64 * hi * 2 ^ 64 + v / 2 ^ 64 * lo * 2 ^ 64 + v / 2 ^ 64 * hi * 2 ^ 128 := by
    conv_lhs => rw [← Nat.div_add_mod v (2 ^ 64)]
    ring
  have hlt : v * (lo + hi * 2 ^ 64) < 2 ^ 128 * 2 ^ 128 := Nat.mul_lt_mul'' hv (by omega)
  rw [hval] at hlt
  refine ⟨_, rfl, ⟨Nat.mod_lt _ (by norm_num), Nat.mod_lt _ (by norm_num), Nat.mod_lt _ (by norm_num), Nat.mod_lt _ (by norm_num)⟩, ?_⟩
  rw [hval, ← vtg_arith a1 a2 a3 a4 (by omega)]
  simp [U256.val, U256.ofU64s]

theorem scaleW_spec (pr : Profile) {s : RnsScaler} (h : s.WF) {rests : List Nat} (hr : Canon s.src.moduliU64 rests) :
    WSpec s rests (fun _ e => e = 0) (Repair.scaleW pr s rests) := by
  intro v hv
  have hq := sum_lt h hr
  refine ⟨fun hi => ⟨false, 0, by unfold Repair.scaleW; rw [hi]; rfl, by norm_num, rfl⟩, fun hi => ?_⟩
  obtain ⟨t, t1, t2, t3⟩ := vThetaGamma_ok pr (v := v) h.tgLo h.tgHi (by omega)
  obtain ⟨u, sg, w, u1, c1, c2, c3⟩ := scaleW_core pr h hr hv (e := 0) t2 (by rw [t3]; simp)
  refine ⟨sg, w, 0, ?_, c2, by simp, rfl, c3⟩
  unfold Repair.scaleW
  rw [hi, if_neg (by simp), u1, res_ok_bind, t1, res_ok_bind]
  exact c1

theorem scale_eq (pr : Profile) (s : RnsScaler) {rests : List Nat} {outLen start : Nat} (h1 : rests.length = s.src.moduliU64.length)
    (h2 : outLen ≠ 0) (h3 : start + outLen ≤ s.dst.moduliU64.length) :
    Repair.scale pr s rests outLen start = scaleBy pr (Repair.scaleW pr s rests) s rests outLen start := by
  unfold Repair.scale scaleBy
  rw [rassert_ok h1, rassert_ok h2, rassert_ok h3, dassert_ok h1, dassert_ok h2, dassert_ok h3]

theorem commonPrefix_le (a b : List Nat) : commonPrefix a b ≤ a.length ∧ commonPrefix a b ≤ b.length := by
  induction a generalizing b with
  | nil => simp [commonPrefix]
  | cons x a ih =>
    cases b with
    | nil => simp [commonPrefix]
    | cons y b =>
      unfold commonPrefix
      have := ih b
      split_ifs <;> simp <;> omega

theorem commonPrefix_eq (a b : List Nat) (i : Nat) (hi : i < commonPrefix a b) : a.getD i 0 = b.getD i 0 := by
  induction a generalizing b i with
  | nil => simp [commonPrefix] at hi
  | cons x a ih =>
    cases b with
    | nil => simp [commonPrefix] at hi
    | cons y b =>
      unfold commonPrefix at hi
      split_ifs at hi with h
      · cases i with
        | zero => simpa using h
        | succ i => simpa using ih b i (by omega)
      · omega

theorem rqScalerNew_ok {K : Nat} {src dst : RqContext} (hs : src.WF K) (hd : dst.WF K) (pr : Profile) (hlen : src.moduli64.length < 2 ^ 62)
    {num den : Nat} (hden : 0 < den) :
    ∃ s, rqScalerNew pr src dst ⟨num, den, decide (num = den)⟩ = .ok s ∧ RqScaler.Built src dst num den s := by
  obtain ⟨r, e, hw, e1, e2, e3⟩ := RnsScaler.new_ok pr hs.core.rns hd.core.rns (by rw [← hs.core.m64]; exact hs.core.ne)
    (by rw [← hs.core.m64]; exact hlen) (sf := ⟨num, den, decide (num = den)⟩) hden
  unfold rqScalerNew
  rw [rassert_ok (by rw [hs.core.deg, hd.core.deg]), res_ok_bind]
  simp only
  rw [e, res_ok_bind]
  refine ⟨_, rfl, rfl, rfl, hw, e1, e2, e3, fun h => by simp [h], ?_, ?_⟩
  · have := (commonPrefix_le src.moduli64 dst.moduli64).1
    simp only
    split_ifs <;> omega
  · intro i hi
    simp only at hi
    split_ifs at hi
    · exact commonPrefix_eq _ _ _ hi
    · omega

end Repair
end OnionPIR
