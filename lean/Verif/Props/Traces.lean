import Verif.Model.LeakKeys
/-
C93, continued: exact traces. The theorems of Props/Leak and Props/LeakKeys compare the traces of two runs; here the events themselves are stated, for
the primitives in general and for a run of each function, so that an event left out of the model or put in the wrong place shows.
-/
namespace OnionPIR

/-- C93: the events of the primitives. In the debug build the arithmetic shows whether it overflows and the assertions their outcome; in the release
build neither leaves an event, `assert!` does. Accesses show the index and divisions their operands, in both builds. -/
theorem c93_events (w a b : Nat) (c : Prop) [Decidable c] (l : List Nat) (i : Nat) :
    (Lk.add w .debug a b).trace = [.branch (decide (a + b < 2 ^ w))] ∧ (Lk.mul w .debug a b).trace = [.branch (decide (a * b < 2 ^ w))] ∧
    (Lk.sub w .debug a b).trace = [.branch (decide (b ≤ a))] ∧ (Lk.dassert .debug c).trace = [.branch (decide c)] ∧
    (Lk.add w .release a b).trace = [] ∧ (Lk.mul w .release a b).trace = [] ∧ (Lk.sub w .release a b).trace = [] ∧
    (Lk.dassert .release c).trace = [] ∧ (Lk.rassert c).trace = [.branch (decide c)] ∧ (Lk.div a b).trace = [.division a b] ∧
    (Lk.idx l i).trace = [.access i] ∧ (Lk.test (decide c)).trace = [.branch (decide c)] :=
  ⟨rfl, rfl, rfl, rfl, rfl, rfl, rfl, rfl, rfl, rfl, rfl, rfl⟩

/-- C93: a loop shows that it goes on before every iteration, the events of the iterations in order, and that it ends. -/
theorem c93_loop {α σ : Type} (f : σ → α → Lk σ) (g : α → Lk σ) (s : σ) (a : α) (l : List α) {s' : σ} (h : (f s a).val = .ok s') {x : σ}
    (hx : (g a).val = .ok x) :
    (Lk.fold f s (a :: l)).trace = .branch true :: ((f s a).trace ++ (Lk.fold f s' l).trace) ∧ (Lk.fold f s []).trace = [.branch false] ∧
    (Lk.map g (a :: l)).trace = .branch true :: ((g a).trace ++ (Lk.map g l).trace) ∧ (Lk.map g []).trace = [.branch false] := by
  refine ⟨?_, rfl, ?_, rfl⟩
  · simp only [Lk.fold, Lk.test, bind, h, List.cons_append, List.nil_append]
  · simp only [Lk.map, Lk.test, bind, hx, pure, List.cons_append, List.nil_append, List.append_nil]
    cases (Lk.map g l).val <;> simp

example : (Lk.fold (fun s a => Lk.div s a) 100 [2, 5]).trace = [.branch true, .division 100 2, .branch true, .division 50 5, .branch false] := by
  decide +kernel

namespace Traces

local notation "T" => Event.branch true
local notation "F" => Event.branch false
local notation "A" => Event.access
local notation "D" => Event.division

/-- The modulus 17. -/
def m17 : Modulus := ⟨17, (2 ^ 128 / 17) >>> 64, (2 ^ 128 / 17) % 2 ^ 64⟩
/-- Tables of the right shape for four coefficients. -/
def op4 : NttOperator := ⟨m17, 34, [1, 2, 3, 4], [1, 2, 3, 4], [0, 1, 2, 3], [5, 6, 7], [5, 6, 7], 4, 13, 7⟩
/-- Tables of the right shape for two coefficients. -/
def op2 : NttOperator := ⟨m17, 34, [1, 2], [1, 2], [0, 1], [5], [5], 2, 9, 7⟩
/-- A context of degree 2. -/
def ctx2 : RqContext := ⟨⟨[17], [m17], ⟨[17], [m17], [1], [1], [1], 17⟩, [op2], 2, ⟨4, 2⟩, [], [], [0, 1]⟩, []⟩
/-- A polynomial. -/
def poly2 : Poly := ⟨ctx2, .ntt, [[1, 2]]⟩
/-- A scaler by 2/17 from 17 to 5. -/
def scaler : RnsScaler :=
  ⟨⟨[17], [m17], [1], [1], [1], 17⟩, ⟨[5], [⟨5, (2 ^ 128 / 5) >>> 64, (2 ^ 128 / 5) % 2 ^ 64⟩], [1], [1], [1], 5⟩, ⟨2, 17, false⟩, [2], [2 * 2 ^ 64 / 5],
    0, 0, false, [[0]], [[0]], [2 ^ 127 * 2 / 17 % 2 ^ 64], [2 ^ 127 * 2 / 17 / 2 ^ 64], [false], [2 ^ 127 / 17 % 2 ^ 64], [2 ^ 127 / 17 / 2 ^ 64], 127⟩

-- `pow`: two comparisons of the exponent, then per bit the loop condition and the bit (src/modulus.rs:126-142).
example : (m17.powL .release 3 5).trace =
    [F, F, T, F, T, T, F] := by decide +kernel
example : (m17.powL .release 3 0).trace =
    [T] := by decide +kernel
example : (m17.powL .release 3 1).trace =
    [F, T] := by decide +kernel
example : (m17.powL .debug 3 2).trace =
    [T, F, F, T, T, T, T, T, T, T, T, T, T, T, T, T, T, T, T, D 9 17, T, F, F] := by decide +kernel

-- `lazy_reduce_ct`, `reduce_ct`, `mul`, `add`, `sub`, `neg`, `inv` in the debug build: the overflow checks, the assertions and the division of the
-- last assertion of `reduce_ct`.
example : (m17.lazyReduceCtL .debug 50).trace =
    [T, T, T, T, T] := by decide +kernel
example : (m17.lazyReduceU128L .debug 50).trace =
    [T, T, T, T, T, T, T, T, T] := by decide +kernel
example : (Modulus.reduceCtL .debug 20 17).trace =
    [T, T, D 20 17, T] := by decide +kernel
example : (m17.reduceI64L .debug (-3)).trace =
    [T, T, T, T, T, T, T, T, T, T, T, D 14 17, T] := by decide +kernel
example : (m17.mulL .debug 5 4).trace =
    [T, T, T, T, T, T, T, T, T, T, T, T, T, T, D 3 17, T] := by decide +kernel
example : (m17.addL .debug 5 14).trace =
    [T, T, T, T, T, D 19 17, T] := by decide +kernel
example : (m17.subL .debug 5 3).trace =
    [T, T, T, T, T, T, D 19 17, T] := by decide +kernel
example : (m17.negL .debug 5).trace =
    [T, T, T, T, D 12 17, T] := by decide +kernel
example : ((⟨3, (2 ^ 128 / 3) >>> 64, (2 ^ 128 / 3) % 2 ^ 64⟩ : Modulus).invL .debug 2).trace =
    [T, T, T, F, T] := by decide +kernel

-- `shoup` divides in both builds; `lazy_mul_shoup` and `mul_shoup` repeat the division in the debug build.
example : (m17.shoupL .release 3).trace =
    [D 55340232221128654848 17] := by decide +kernel
example : (m17.lazyMulShoupL .debug 5 3 (3 * 2 ^ 64 / 17)).trace =
    [T, T, D 55340232221128654848 17, T, T, T, T, T, T] := by decide +kernel
example : (m17.mulShoupL .release 5 3 7).trace =
    [] := by decide +kernel
example : (m17.scalarMulVecL .release [4, 5] 3).trace =
    [D 55340232221128654848 17, T, T, F] := by decide +kernel
example : (m17.reduceBigUintL 100).trace =
    [D 100 17] := by decide +kernel

-- `butterfly`, `butterfly_inv` and `reduce_4p` in the debug build (src/ntt.rs:163-192, 241-245).
example : (op4.butterflyL .debug 5 6 3 (3 * 2 ^ 64 / 17)).trace =
    [T, T, T, T, D 55340232221128654848 17, T, T, T, D 5 34, T, T, T, D 55340232221128654848 17, T, T, T, T, T, T, T, T, T, T, T] := by decide +kernel
example : (op4.butterflyInvL .debug 5 6 3 (3 * 2 ^ 64 / 17)).trace =
    [T, T, T, T, D 55340232221128654848 17, T, T, T, T, D 11 34, T, T, T, T, T, D 55340232221128654848 17, T, T, T, T, T, T, T, T] := by decide +kernel
example : (NttOperator.reduce4pL .debug 60 m17).trace =
    [T, T, T, T, D 60 34, T, T, T, D 26 17, T] := by decide +kernel

-- `forward` and `backward` of four coefficients (src/ntt.rs:77-156): the loop conditions, the test of `l`, the accesses to the tables and to the
-- pairs.
example : (op4.forwardL .release [1, 2, 3, 4]).trace =
    [T, T, T, A 1, A 1, F, T, A 0, A 2, T, A 1, A 3, F, F, T, T, A 2, A 2, T, A 0, A 1, T, A 3, A 3, T, A 2, A 3, F, F] := by decide +kernel
example : (op4.backwardL .release [1, 2, 3, 4]).trace =
    [T, T, T, A 0, A 0, T, A 0, A 1, F, T, A 1, A 1, T, A 2, A 3, F, F, T, T, A 2, A 2, T, A 0, A 2, T, A 1, A 3, F, F, F, T, T, T, T, F] := by decide +kernel

-- `sample_vec_cbd` (src/utils.rs:54-85): the refills of the pool are seen.
example : (sampleVecCbdL .release (fun _ => 5) 3 10).trace =
    [T, T, T, T, T, T, F, F] := by decide +kernel
example : (sampleVecCbdL .debug (fun _ => 5) 2 10).trace =
    [T, T, T, T, T, T, T, T, T, F] := by decide +kernel
example : (sampleVecCbdL .release (fun _ => 5) 3 17).trace =
    [F] := by decide +kernel

-- `substitute` by `X ↦ X^3` (src/rq.rs:343-386), in power basis and in NTT form.
example : (Poly.substRowPowerL .release 4 3 [0, 0, 0, 0] [1, 2, 3, 4] m17).trace =
    [T, A 0, A 0, F, T, A 1, A 3, F, T, A 2, A 2, T, T, A 3, A 1, F, F] := by decide +kernel
example : (Poly.substRowPowerL .debug 2 3 [0, 0] [1, 2] m17).trace =
    [T, A 0, A 0, F, T, T, T, T, T, D 1 17, T, T, T, A 1, A 1, T, T, T, T, T, T, T, D 15 17, T, T, F] := by decide +kernel
example : (Poly.substRowNttL [0, 3, 2, 1] [0, 2, 1, 3] [0, 0, 0, 0] [1, 2, 3, 4]).trace =
    [T, A 0, A 0, T, A 3, A 2, T, A 2, A 1, T, A 1, A 3, F] := by decide +kernel

-- The vector operations and the additions of polynomials visit the coefficients in order.
example : (m17.addVecL .release [1, 2] [3, 4, 5]).trace =
    [T, T, F] := by decide +kernel
example : (m17.negVecL .release [1, 2]).trace =
    [T, T, F] := by decide +kernel
example : (m17.mulVecL .release [1, 2, 3] [3]).trace =
    [T, F] := by decide +kernel
example : (poly2.addL .release poly2).trace =
    [T, T, T, T, T, F, F] := by decide +kernel
example : (poly2.mulL .release poly2).trace =
    [T, T, T, T, T, F, F] := by decide +kernel
example : (poly2.changeRepresentationL .release .powerBasis).trace =
    [T, T, T, T, A 0, A 0, T, A 0, A 1, F, F, F, T, T, F, F] := by decide +kernel
example : (poly2.changeRepresentationL .release .ntt).trace =
    [] := by decide +kernel
example : (Poly.tryFromVecI64L .release ctx2 [1, -1]).trace =
    [T, T, T, F, F] := by decide +kernel
example : (Poly.tryFromVecU64L .release ctx2 [1, 3]).trace =
    [T, T, T, F, F] := by decide +kernel
example : (Poly.tryFromBigintL ctx2 [100]).trace =
    [T, T, D 100 17, F, F] := by decide +kernel
example : (poly2.substituteL .release ⟨3, [0, 1]⟩).trace =
    [T, T, A 0, A 0, T, A 1, A 1, F, F] := by decide +kernel

-- `encode` of the client (src/evaluations.rs:36-62): the coordinates are not seen unless they are out of range.
example : (Client.encodeL .debug ⟨3, 2⟩ [1, 0, 1] 12).trace =
    [A 0, T, T, T, T, F, D 12 3, D 4 4, T, T, T, T, T, F, T, T, T, T, F, F] := by decide +kernel
example : (Client.encodeL .release ⟨3, 2⟩ [1, 2, 1] 12).trace =
    [A 0, T, T, T, T, F, D 12 3, D 4 4, T, T, F] := by decide +kernel

-- PVW (src/pvw.rs): the inner products, the public key, encryption, and decryption, whose rounding divides.
example : (Pvw.dotL .release m17 2 [[1, 2]] 0 [3, 4]).trace =
    [T, A 0, A 0, A 0, T, A 0, A 1, A 1, F] := by decide +kernel
example : (Pvw.genPkL .release [[1, 2], [3, 4]] ⟨2, 2, 2, 17, 1⟩ (fun _ _ => 3) (fun _ _ => 5)).trace =
    [T, T, T, T, T, F, F, T, T, F, T, A 0, T, A 0, A 0, A 0, T, A 0, A 1, A 1, F, A 0, T, A 1, T, A 0, A 0, A 0, T, A 0, A 1, A 1, F, A 1, F, T,
     T, T, T, T, F, F, T, T, F, T, A 0, T, A 1, A 0, A 0, T, A 1, A 1, A 1, F, A 0, T, A 1, T, A 1, A 0, A 0, T, A 1, A 1, A 1, F, A 1, F, F, T,
     T, A 0, T, A 0, F, A 0, T, T, A 1, T, A 1, F, A 1, F] := by decide +kernel
example : (Pvw.decryptL .release [[1, 2], [3, 4]] ⟨2, 2, 1, 17, 1⟩ ⟨[3, 4], [5, 6]⟩).trace =
    [T, T, A 0, A 0, A 0, T, A 0, A 1, A 1, F, A 0, A 0, T, T, A 1, A 0, A 0, T, A 1, A 1, A 1, F, A 1, A 1, F, T, D 15 8, T, D 19 8, F] := by decide +kernel
example : (Pvw.encryptL .release [⟨[3, 4], [5]⟩, ⟨[6, 7], [8]⟩] ⟨2, 1, 2, 17, 1⟩ [1] (fun _ => 1)).trace =
    [T, T, A 0, A 0, A 0, A 0, F, T, A 0, A 0, A 0, A 0, T, A 0, A 1, A 1, A 1, F, T, T, A 1, A 0, A 0, A 0, F, T, A 1, A 0, A 0, A 0, T, A 1, A
     1, A 1, A 1, F, F, T, F] := by decide +kernel
example : (Pvw.roundL .debug 17 5).trace =
    [T, D 9 8] := by decide +kernel

-- The scaling of residues (src/rns.rs:298-431) with the factor 2/17 from the modulus 17 to the modulus 5: the signs are branched on.
example : (scaler.scaleL .release [11] 1 0).trace =
    [T, F, T, T, T, F, F, F, F, F, F, F, T, T, T, A 0, A 0, A 0, A 0, A 0, T, F, T, A 0, F, F] := by decide +kernel
example : (scaler.scaleL .release [2] 1 0).trace =
    [T, F, T, T, T, F, F, F, F, F, F, F, T, T, T, A 0, A 0, A 0, A 0, A 0, T, F, T, A 0, F, F] := by decide +kernel
example : (RnsScaler.roundWL .release (U256.ofU64s 0 0 0 (2 ^ 63))).trace =
    [T, F, F, F, T] := by decide +kernel
example : (RnsScaler.toU128L .debug (U256.ofU64s 1 1 0 0)).trace =
    [T, T] := by decide +kernel
example : (RnsScaler.vThetaGammaL .debug 5 3 4).trace =
    [T, T, T, T, T, T, T, T] := by decide +kernel
example : (RnsScaler.divCeil2L 128 .debug 5).trace =
    [T, T, T] := by decide +kernel
example : (RqScaler.columnL poly2 1).trace =
    [A 1] := by decide +kernel
example : (RnsScaler.mulWordsL .debug 3 4 5).trace =
    [T, T, T] := by decide +kernel

end Traces
end OnionPIR
