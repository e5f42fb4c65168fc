import Verif.Model.Rq
import Verif.Proofs.Ntt
import Verif.Proofs.RnsScaler
import Verif.Proofs.Ring
/-
Lemmas about polynomials: a well-formed context, the encoding `enc` of an element of `Z[X]/(X^N+1)` as the list of rows
the code stores, and the action of the row-wise operations on encodings.
-/
namespace OnionPIR
open Rg

/-! ### Lists -/

theorem zip3MutM_map {ι α β γ : Type _} {f : α → β → γ → Res α} {l : List ι} {a : ι → α} {b : ι → β} {c : ι → γ} {d : ι → α}
    (h : ∀ x ∈ l, f (a x) (b x) (c x) = .ok (d x)) : zip3MutM f (l.map a) (l.map b) (l.map c) = .ok (l.map d) := by
  induction l with
  | nil => rfl
  | cons x l ih =>
    simp only [List.map_cons, zip3MutM, h x (by simp), ih (fun y hy => h y (by simp [hy])), res_ok_bind]

theorem zipMutM_map {ι α β : Type _} {f : α → β → Res α} {l : List ι} {a : ι → α} {b : ι → β} {d : ι → α}
    (h : ∀ x ∈ l, f (a x) (b x) = .ok (d x)) : zipMutM f (l.map a) (l.map b) = .ok (l.map d) := by
  induction l with
  | nil => rfl
  | cons x l ih =>
    simp only [List.map_cons, zipMutM, h x (by simp), ih (fun y hy => h y (by simp [hy])), res_ok_bind]

theorem mapR_map {ι α β : Type _} {f : α → Res β} {l : List ι} {a : ι → α} {d : ι → β}
    (h : ∀ x ∈ l, f (a x) = .ok (d x)) : mapR f (l.map a) = .ok (l.map d) := by
  induction l with
  | nil => rfl
  | cons x l ih =>
    simp only [List.map_cons, mapR, h x (by simp), ih (fun y hy => h y (by simp [hy])), res_ok_bind]

/-! ### Well-formed contexts -/

/-- What `RqContext::new` establishes about the fields other than `next_ctx`. -/
structure RqCore.WF (K : Nat) (c : RqCore) : Prop where
  three : 3 ≤ K
  K_le : K ≤ 62
  deg : c.degree = 2 ^ K
  rns : c.rns.WF
  mods : c.moduli = c.rns.moduli
  m64 : c.moduli64 = c.rns.moduliU64
  ne : c.moduli64 ≠ []
  ops_p : c.nttOps.map (·.p) = c.moduli
  ops : ∀ op ∈ c.nttOps, ∃ psi psiInv, op.WF K psi psiInv
  inv : c.qLastInvMod = c.moduli64.dropLast.map (fun q => (c.moduli64.getLast ne % q) ^ (q - 2) % q)
  invs : c.qLastInvModShoup = c.moduli64.dropLast.map (fun q => (c.moduli64.getLast ne % q) ^ (q - 2) % q * 2 ^ 64 / q)
  br : c.bitrev = (List.range (2 ^ K)).map (reverseBits K)

/-- The chain below a core drops one modulus at a time, down to one modulus. -/
def RqCore.ChainWF (K : Nat) : RqCore → List RqCore → Prop
  | c, [] => c.moduli64.length = 1
  | c, d :: ds => d.WF K ∧ d.moduli64 = c.moduli64.dropLast ∧ RqCore.ChainWF K d ds

structure RqContext.WF (K : Nat) (c : RqContext) : Prop where
  core : c.toRqCore.WF K
  chain : c.toRqCore.ChainWF K c.chain

namespace RqCore
variable {K : Nat} {c : RqCore}

theorem WF.m64_ops (h : c.WF K) : c.moduli64 = c.nttOps.map (fun op => op.p.p) := by
  rw [h.m64, ← h.rns.ps, ← h.mods, ← h.ops_p, List.map_map]; rfl

theorem WF.op_mem (h : c.WF K) {op : NttOperator} (hop : op ∈ c.nttOps) : op.p ∈ c.moduli := by
  rw [← h.ops_p]; exact List.mem_map_of_mem hop

theorem WF.mod_wf (h : c.WF K) {m : Modulus} (hm : m ∈ c.moduli) : m.WF := h.rns.mods m (by rw [← h.mods]; exact hm)

theorem WF.two_pos (_ : c.WF K) : 0 < 2 ^ K := by positivity

theorem WF.len (h : c.WF K) : c.moduli.length = c.nttOps.length := by rw [← h.ops_p, List.length_map]

theorem WF.prod (h : c.WF K) : c.rns.product = c.moduli64.prod := by rw [h.rns.prod, h.m64]

end RqCore

/-! ### Encodings -/

/-- The root used by an operator. -/
def psiOf (op : NttOperator) : Nat := op.omegas.getD (op.size / 2) 0

/-- The `j`-th evaluation point of an operator. -/
def ptOf (K : Nat) (op : NttOperator) (j : Nat) : ZMod op.p.p := (psiOf op : ZMod op.p.p) ^ (2 * reverseBits K j + 1)

/-- Residues of the coefficients of `f`. -/
noncomputable def rowP {N : Nat} (f : Rg N) (q : Nat) : List Nat := (List.range N).map fun k => (cf f k % (q : ℤ)).toNat

/-- Values of `f` at the evaluation points. -/
noncomputable def rowN {K : Nat} (f : Rg (2 ^ K)) (op : NttOperator) : List Nat :=
  (List.range (2 ^ K)).map fun j => (ev (ptOf K op j) f).val

/-- The rows stored for `f`. -/
noncomputable def encRows {K : Nat} (c : RqContext) (rep : Representation) (f : Rg (2 ^ K)) : List (List Nat) :=
  match rep with
  | .powerBasis => c.nttOps.map fun op => rowP f op.p.p
  | _ => c.nttOps.map fun op => rowN f op

/-- The polynomial `f` as stored in the context `c`. -/
noncomputable def enc {K : Nat} (c : RqContext) (rep : Representation) (f : Rg (2 ^ K)) : Poly :=
  { context := c, representation := rep, coefficients := encRows c rep f }

section rows
variable {K : Nat}

theorem length_rowP {N : Nat} (f : Rg N) (q : Nat) : (rowP f q).length = N := by simp [rowP]
theorem length_rowN (f : Rg (2 ^ K)) (op : NttOperator) : (rowN f op).length = 2 ^ K := by simp [rowN]

theorem getD_rowP {N : Nat} (f : Rg N) (q : Nat) {k : Nat} (hk : k < N) : (rowP f q).getD k 0 = (cf f k % (q : ℤ)).toNat := by
  unfold rowP; rw [NttOperator.getD_map_of_lt _ _ _ 0 0 (by simpa using hk)]; simp [List.getD, hk]

theorem getD_rowN (f : Rg (2 ^ K)) (op : NttOperator) {k : Nat} (hk : k < 2 ^ K) :
    (rowN f op).getD k 0 = (ev (ptOf K op k) f).val := by
  unfold rowN; rw [NttOperator.getD_map_of_lt _ _ _ 0 0 (by simpa using hk)]; simp [List.getD, hk]

theorem emod_toNat_lt {q : Nat} (hq : 0 < q) (x : ℤ) : (x % (q : ℤ)).toNat < q := by
  have h1 := Int.emod_nonneg x (show (q : ℤ) ≠ 0 by omega)
  have h2 := Int.emod_lt_of_pos x (show (0 : ℤ) < q by omega)
  omega

theorem cast_emod_toNat {q : Nat} (hq : 0 < q) (x : ℤ) : ((x % (q : ℤ)).toNat : ZMod q) = (x : ZMod q) := by
  have h1 := Int.emod_nonneg x (show (q : ℤ) ≠ 0 by omega)
  have h2 : (((x % (q : ℤ)).toNat : ℤ) : ZMod q) = ((x % (q : ℤ) : ℤ) : ZMod q) := by rw [Int.toNat_of_nonneg h1]
  rw [Int.cast_natCast] at h2
  rw [h2, ZMod.intCast_mod]

theorem emod_toNat_eq_iff {q : Nat} (hq : 0 < q) (x y : ℤ) :
    (x % (q : ℤ)).toNat = (y % (q : ℤ)).toNat ↔ (q : ℤ) ∣ x - y := by
  have h1 := Int.emod_nonneg x (show (q : ℤ) ≠ 0 by omega)
  have h2 := Int.emod_nonneg y (show (q : ℤ) ≠ 0 by omega)
  rw [← Int.emod_eq_emod_iff_emod_sub_eq_zero.trans Int.dvd_iff_emod_eq_zero.symm]
  omega

theorem rowP_lt {N : Nat} (f : Rg N) {q : Nat} (hq : 0 < q) : ∀ x ∈ rowP f q, x < q := by
  intro x hx
  unfold rowP at hx
  rw [List.mem_map] at hx
  obtain ⟨k, _, rfl⟩ := hx
  exact emod_toNat_lt hq _

theorem rowN_lt (f : Rg (2 ^ K)) (op : NttOperator) (h : op.p.WF) : ∀ x ∈ rowN f op, x < op.p.p := by
  intro x hx
  unfold rowN at hx
  rw [List.mem_map] at hx
  obtain ⟨k, _, rfl⟩ := hx
  have := NeZero.mk (Nat.pos_iff_ne_zero.mp h.pos)
  exact ZMod.val_lt _

theorem psiOf_eq {op : NttOperator} {psi psiInv : Nat} (h : op.WF K psi psiInv) : psiOf op = psi := by
  have h3 := h.three_le
  have h0 : 0 < 2 ^ K := by positivity
  have hh : reverseBits K (2 ^ K / 2) = 1 := by
    obtain ⟨s, rfl⟩ : ∃ s, K = s + 1 := ⟨K - 1, by omega⟩
    rw [pow_succ, Nat.mul_div_cancel _ (by norm_num)]
    have := reverseBits_split s 1 0 1 (by positivity)
    rw [Nat.mul_one, Nat.zero_add, reverseBits_zero] at this
    rw [this]; rfl
  rw [psiOf, h.size, h.om _ (by omega), hh, pow_one, Nat.mod_eq_of_lt h.psi_lt]

theorem ptOf_pow {op : NttOperator} {psi psiInv : Nat} (h : op.WF K psi psiInv) (j : Nat) : ptOf K op j ^ 2 ^ K = -1 := by
  unfold ptOf
  rw [psiOf_eq h, ← pow_mul, mul_comm, pow_mul, h.psi_pow]
  exact Odd.neg_one_pow ⟨_, rfl⟩

theorem forward_row {op : NttOperator} {psi psiInv : Nat} (h : op.WF K psi psiInv) (pr : Profile) (f : Rg (2 ^ K)) :
    op.forward pr (rowP f op.p.p) = .ok (rowN f op) := by
  have hp := h.mod.pos
  have hl := rowP_lt f hp
  obtain ⟨a, e1, e2, e3, e4⟩ := NttOperator.forward_eval h pr (length_rowP f op.p.p) (fun x hx => by have := hl x hx; omega)
  rw [e1]
  congr 1
  refine NttOperator.eq_of_vals e2 (length_rowN f op) e3 (rowN_lt f op h.mod) fun j hj => ?_
  have := NeZero.mk (Nat.pos_iff_ne_zero.mp hp)
  rw [e4 j hj, NttOperator.vals, getD_rowN f op hj, ZMod.natCast_zmod_val, ev]
  apply Finset.sum_congr rfl
  intro k hk
  rw [NttOperator.vals, getD_rowP f _ (Finset.mem_range.mp hk), cast_emod_toNat hp, ptOf, psiOf_eq h]

theorem backward_row {op : NttOperator} {psi psiInv : Nat} (h : op.WF K psi psiInv) (pr : Profile) (f : Rg (2 ^ K)) :
    op.backward pr (rowN f op) = .ok (rowP f op.p.p) := by
  obtain ⟨b, e1, e2, e3, e4⟩ := NttOperator.backward_forward h pr (length_rowP f op.p.p) (rowP_lt f h.mod.pos)
  rw [forward_row h] at e1
  cases e1
  exact e4

theorem addVec_row {op : NttOperator} (h : op.p.WF) (pr : Profile) (f g : Rg (2 ^ K)) :
    op.p.addVec pr (rowN f op) (rowN g op) = .ok (rowN (f + g) op) := by
  have := NeZero.mk (Nat.pos_iff_ne_zero.mp h.pos)
  unfold Modulus.addVec rowN
  apply zipMutM_map
  intro j _
  rw [Modulus.add_ok h pr (ZMod.val_lt _) (ZMod.val_lt _), ev_add (by positivity), ZMod.val_add]

theorem zsub_val {p : Nat} [NeZero p] (a b : ZMod p) : (a.val + (p - b.val)) % p = (a - b).val := by
  have hb := ZMod.val_lt b
  have : ((a.val + (p - b.val) : Nat) : ZMod p) = a - b := by
    rw [Nat.cast_add, Nat.cast_sub hb.le]; simp [sub_eq_add_neg]
  rw [← this, ZMod.val_natCast]

theorem subVec_row {op : NttOperator} (h : op.p.WF) (pr : Profile) (f g : Rg (2 ^ K)) :
    op.p.subVec pr (rowN f op) (rowN g op) = .ok (rowN (f - g) op) := by
  have := NeZero.mk (Nat.pos_iff_ne_zero.mp h.pos)
  unfold Modulus.subVec rowN
  apply zipMutM_map
  intro j _
  rw [Modulus.sub_ok h pr (ZMod.val_lt _) (ZMod.val_lt _), ev_sub (by positivity), zsub_val]

theorem mulVec_row {op : NttOperator} {psi psiInv : Nat} (h : op.WF K psi psiInv) (pr : Profile) (f g : Rg (2 ^ K)) :
    op.p.mulVec pr (rowN f op) (rowN g op) = .ok (rowN (f * g) op) := by
  have := NeZero.mk (Nat.pos_iff_ne_zero.mp h.mod.pos)
  unfold Modulus.mulVec rowN
  apply zipMutM_map
  intro j _
  rw [Modulus.mul_ok h.mod pr (ZMod.val_lt _) (ZMod.val_lt _), ev_mul (by positivity) _ (ptOf_pow h j), ZMod.val_mul]

theorem negVec_rowN {op : NttOperator} (h : op.p.WF) (pr : Profile) (f : Rg (2 ^ K)) :
    op.p.negVec pr (rowN f op) = .ok (rowN (-f) op) := by
  have := NeZero.mk (Nat.pos_iff_ne_zero.mp h.pos)
  unfold Modulus.negVec rowN
  apply mapR_map
  intro j _
  rw [Modulus.neg_ok h pr (ZMod.val_lt _), ev_neg (by positivity), ← zero_sub, ← zsub_val, ZMod.val_zero, Nat.zero_add]

theorem negVec_rowP {m : Modulus} (h : m.WF) (pr : Profile) (f : Rg (2 ^ K)) :
    m.negVec pr (rowP f m.p) = .ok (rowP (-f) m.p) := by
  have hp := h.pos
  unfold Modulus.negVec rowP
  apply mapR_map
  intro j _
  have hl := emod_toNat_lt hp (cf f j)
  rw [Modulus.neg_ok h pr hl, cf_neg (by positivity)]
  congr 1
  have h1 := Int.emod_nonneg (cf f j) (show (m.p : ℤ) ≠ 0 by omega)
  have h2 := Int.emod_nonneg (-cf f j) (show (m.p : ℤ) ≠ 0 by omega)
  zify
  rw [Nat.cast_sub hl.le, Int.toNat_of_nonneg h1, Int.toNat_of_nonneg h2]
  have h3 := Int.emod_add_mul_ediv (cf f j) m.p
  rw [show (m.p : ℤ) - cf f j % m.p = -cf f j + m.p * (1 + cf f j / m.p) by linear_combination -h3, Int.add_mul_emod_self_left]
end rows

/-! ### Operations on encodings -/

namespace RqContext
variable {K : Nat} {c : RqContext}

theorem WF.op_wf (h : c.WF K) {op : NttOperator} (hop : op ∈ c.nttOps) : ∃ psi psiInv, op.WF K psi psiInv := h.core.ops op hop
theorem WF.opp_wf (h : c.WF K) {op : NttOperator} (hop : op ∈ c.nttOps) : op.p.WF := by
  obtain ⟨_, _, hw⟩ := h.op_wf hop; exact hw.mod
theorem WF.moduli_eq (h : c.WF K) : c.moduli = c.nttOps.map (·.p) := h.core.ops_p.symm
theorem WF.pow_pos (_ : c.WF K) : 0 < 2 ^ K := by positivity

end RqContext

namespace Poly
variable {K : Nat} {c : RqContext}

theorem toNtt_enc (h : c.WF K) (pr : Profile) (f : Rg (2 ^ K)) :
    (enc c .powerBasis f).changeRepresentation pr .ntt = .ok (enc c .ntt f) := by
  simp only [changeRepresentation, enc, encRows]
  have := zipMutM_map (f := fun row (op : NttOperator) => op.forward pr row) (l := c.nttOps) (a := fun op => rowP f op.p.p)
    (b := fun op => op) (d := fun op => rowN f op) (fun op hop => by
      obtain ⟨_, _, hw⟩ := h.op_wf hop; exact forward_row hw pr f)
  rw [List.map_id'] at this
  rw [this]; rfl

theorem toPower_enc (h : c.WF K) (pr : Profile) (f : Rg (2 ^ K)) :
    (enc c .ntt f).changeRepresentation pr .powerBasis = .ok (enc c .powerBasis f) := by
  simp only [changeRepresentation, enc, encRows]
  have := zipMutM_map (f := fun row (op : NttOperator) => op.backward pr row) (l := c.nttOps) (a := fun op => rowN f op)
    (b := fun op => op) (d := fun op => rowP f op.p.p) (fun op hop => by
      obtain ⟨_, _, hw⟩ := h.op_wf hop; exact backward_row hw pr f)
  rw [List.map_id'] at this
  rw [this]; rfl

/-- Representations the code supports. -/
theorem change_enc (h : c.WF K) (pr : Profile) (f : Rg (2 ^ K)) {r r' : Representation} (hr : r ≠ .nttShoup) (hr' : r' ≠ .nttShoup) :
    (enc c r f).changeRepresentation pr r' = .ok (enc c r' f) := by
  cases r <;> cases r' <;> first | contradiction | exact toNtt_enc h pr f | exact toPower_enc h pr f | rfl

theorem add_enc (h : c.WF K) (pr : Profile) (f g : Rg (2 ^ K)) :
    (enc c .ntt f).add pr (enc c .ntt g) = .ok (enc c .ntt (f + g)) := by
  unfold add
  rw [rassert_ok (show (enc c .ntt f).representation = .ntt from rfl), res_ok_bind,
    rassert_ok (show (enc c .ntt g).representation = .ntt from rfl), res_ok_bind]
  simp only [enc, encRows, h.moduli_eq]
  rw [zip3MutM_map (d := fun op => rowN (f + g) op) (fun op hop => addVec_row (h.opp_wf hop) pr f g)]; rfl

theorem sub_enc (h : c.WF K) (pr : Profile) (f g : Rg (2 ^ K)) :
    (enc c .ntt f).sub pr (enc c .ntt g) = .ok (enc c .ntt (f - g)) := by
  unfold sub
  rw [rassert_ok (show (enc c .ntt f).representation = .ntt from rfl), res_ok_bind,
    rassert_ok (show (enc c .ntt g).representation = .ntt from rfl), res_ok_bind]
  simp only [enc, encRows, h.moduli_eq]
  rw [zip3MutM_map (d := fun op => rowN (f - g) op) (fun op hop => subVec_row (h.opp_wf hop) pr f g)]; rfl

theorem mul_enc (h : c.WF K) (pr : Profile) (f g : Rg (2 ^ K)) :
    (enc c .ntt f).mul pr (enc c .ntt g) = .ok (enc c .ntt (f * g)) := by
  unfold mul
  rw [rassert_ok (show (enc c .ntt f).representation = .ntt from rfl), res_ok_bind,
    rassert_ok (show (enc c .ntt g).representation = .ntt from rfl), res_ok_bind]
  simp only [enc, encRows, h.moduli_eq]
  rw [zip3MutM_map (d := fun op => rowN (f * g) op) (fun op hop => by
    obtain ⟨_, _, hw⟩ := h.op_wf hop; exact mulVec_row hw pr f g)]; rfl

theorem zero_coeffs (h : c.WF K) (r : Representation) :
    (zero c r).coefficients = c.nttOps.map (fun _ => List.replicate (2 ^ K) 0) := by
  simp only [zero]
  rw [h.core.deg, h.core.len, List.map_const']

theorem copyFromSlice_ok {a b : List Nat} (h : a.length = b.length) : copyFromSlice a b = .ok b := by simp [copyFromSlice, h]

theorem neg_enc (h : c.WF K) (pr : Profile) (f : Rg (2 ^ K)) (r : Representation) :
    (enc c r f).neg pr = .ok (enc c r (-f)) := by
  unfold neg
  have hz : (zero (enc c r f).context (enc c r f).representation).coefficients = _ := zero_coeffs h r
  rw [hz]
  have hm : (enc c r f).context.moduli = c.nttOps.map (·.p) := h.moduli_eq
  rw [hm]
  cases r with
  | powerBasis =>
    simp only [enc, encRows]
    rw [zip3MutM_map (d := fun op => rowP (-f) op.p.p)]
    · rfl
    · intro op hop
      rw [negVec_rowP (h.opp_wf hop), res_ok_bind, copyFromSlice_ok (by rw [length_rowP, List.length_replicate])]
  | _ =>
    simp only [enc, encRows]
    rw [zip3MutM_map (d := fun op => rowN (-f) op)]
    · rfl
    · intro op hop
      rw [negVec_rowN (h.opp_wf hop), res_ok_bind, copyFromSlice_ok (by rw [length_rowN, List.length_replicate])]

theorem rowP_zero (q : Nat) : rowP (0 : Rg (2 ^ K)) q = List.replicate (2 ^ K) 0 := by
  unfold rowP
  simp only [cf_zero (show 0 < 2 ^ K by positivity), Int.zero_emod, Int.toNat_zero]
  rw [List.map_const', List.length_range]

theorem rowN_zero (op : NttOperator) (h : op.p.WF) : rowN (0 : Rg (2 ^ K)) op = List.replicate (2 ^ K) 0 := by
  have := NeZero.mk (Nat.pos_iff_ne_zero.mp h.pos)
  unfold rowN
  simp only [ev_zero (show 0 < 2 ^ K by positivity), ZMod.val_zero]
  rw [List.map_const', List.length_range]

theorem zero_enc (h : c.WF K) (r : Representation) : zero c r = enc c r (0 : Rg (2 ^ K)) := by
  have h1 := zero_coeffs h r
  have h2 : (enc c r (0 : Rg (2 ^ K))).coefficients = c.nttOps.map (fun _ => List.replicate (2 ^ K) 0) := by
    cases r with
    | powerBasis => simp only [enc, encRows, rowP_zero]
    | _ =>
      simp only [enc, encRows]
      apply List.map_congr_left
      intro op hop
      rw [rowN_zero _ (h.opp_wf hop)]
  rw [← h2] at h1
  unfold zero enc at *
  simp only at h1
  rw [h1]

end Poly
end OnionPIR
