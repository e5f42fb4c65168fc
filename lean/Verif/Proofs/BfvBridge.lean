import Verif.Spec.Bfv
import Verif.Proofs.Ksk
import Verif.Proofs.BfvExists
/- From the specification vocabulary to encodings. -/
namespace OnionPIR
open Rg Spec

variable {K : Nat}

namespace BfvP

theorem params {N t : Nat} {l : List Nat} {variance : Nat} {P : BfvParameters} (h : IsParams N t l variance P) :
    ∃ K ext, N = 2 ^ K ∧ P.WF K ext ∧ P.plaintextModulus = t ∧ P.ciphertextModuli = l ∧ P.variance = variance := by
  obtain ⟨h1, h2, h3, pr, sample, bd, hs, hn⟩ := h
  obtain ⟨⟨K, ext, hw⟩, e1, e2, e3, e4⟩ := BfvParameters.new_wf hs h1 h3 h2 hn
  exact ⟨K, ext, by rw [← e1, hw.deg], hw, e2, e3, e4⟩

theorem levelQ_eq {P : BfvParameters} {ext : List Nat} {i : Nat} {L : BfvLevel} (hL : P.At K ext i L) :
    L.qCtx.Q = levelQ P.ciphertextModuli i := by
  unfold RqContext.Q levelQ levelModuli; rw [hL.wf.mods]

theorem levelModuli_eq {P : BfvParameters} {ext : List Nat} {i : Nat} {L : BfvLevel} (hL : P.At K ext i L) :
    L.qCtx.moduli64 = levelModuli P.ciphertextModuli i := hL.wf.mods

theorem ofCoeffs_cf' (f : Rg (2 ^ K)) : ofCoeffs (2 ^ K) (cf f) = f := ofCoeffs_cf (by positivity) f

theorem polyAt_iff {P : BfvParameters} {ext : List Nat} {i : Nat} {L : BfvLevel} (hL : P.At K ext i L) (f : Rg (2 ^ K)) (p : Poly) :
    PolyAt P i f p ↔ p = enc L.qCtx .ntt f := by
  unfold PolyAt
  rw [hL.q]
  constructor
  · rintro ⟨c, hc, h⟩
    cases hc
    rw [RqP.denotes_iff hL.wf.ctx (by simp), ofCoeffs_cf'] at h
    exact h
  · rintro rfl
    exact ⟨_, rfl, RqP.denotes_enc hL.wf.ctx (by simp) f (fun _ _ => rfl)⟩

theorem isCt_iff {P : BfvParameters} {ext : List Nat} {i : Nat} {L : BfvLevel} (hL : P.At K ext i L) (fs : List (Rg (2 ^ K)))
    (ct : BfvCipherText) : IsCt P i fs ct ↔ ct.params = P ∧ ct.level = i ∧ ct.cts = fs.map (enc L.qCtx .ntt) := by
  unfold IsCt
  have : ∀ (fs : List (Rg (2 ^ K))) (cts : List Poly), List.Forall₂ (PolyAt P i) fs cts ↔ cts = fs.map (enc L.qCtx .ntt) := by
    intro fs
    induction fs with
    | nil => intro cts; simp
    | cons f fs ih =>
      intro cts
      cases cts with
      | nil => simp
      | cons p cts => rw [List.forall₂_cons, ih, polyAt_iff hL]; simp
  rw [this]

theorem level_lt {P : BfvParameters} {i : Nat} {f : Rg (2 ^ K)} {p : Poly} {ext : List Nat} (hP : P.WF K ext) (h : PolyAt P i f p) :
    i < P.ciphertextModuli.length := by
  obtain ⟨c, hc, -⟩ := h
  rw [← hP.nLevels]
  exact (List.getElem?_eq_some_iff.mp hc).1

theorem isCt_level {P : BfvParameters} {i : Nat} {fs : List (Rg (2 ^ K))} {ct : BfvCipherText} {ext : List Nat} (hP : P.WF K ext)
    (hne : fs ≠ []) (h : IsCt P i fs ct) : ∃ L, P.At K ext i L := by
  apply hP.levels
  obtain ⟨-, -, h⟩ := h
  cases fs with
  | nil => exact absurd rfl hne
  | cons f fs =>
    obtain ⟨p, ps, h, -, -⟩ := List.forall₂_cons_left_iff.mp h
    exact level_lt hP h

theorem key {P : BfvParameters} {ext : List Nat} (hP : P.WF K ext) {sk : SecretKey} (h : IsKey P sk) : sk.WF K ext := by
  obtain ⟨h1, h2, h3⟩ := h
  subst h1
  exact ⟨hP, by rw [← hP.deg]; exact h2, h3⟩

theorem keyRing_eq (sk : SecretKey) : keyRing (2 ^ K) sk = sk.ring K := rfl

theorem phase_eq {N : Nat} (s : Rg N) (fs : List (Rg N)) : phase s fs = SecretKey.phaseOf s fs := by
  induction fs with
  | nil => rfl
  | cons f fs ih => rw [phase, SecretKey.phaseOf, ih]

theorem phase_two {N : Nat} (s f g : Rg N) : phase s [f, g] = f + g * s := by simp only [phase]; ring

theorem tape {P : BfvParameters} {ext : List Nat} {i : Nat} {L : BfvLevel} (hL : P.At K ext i L) {tape : Nat → Nat → Nat}
    (h : TapeAt P.ciphertextModuli i tape) : TapeOk L.qCtx tape := by
  unfold TapeOk
  rw [hL.wf.mods]
  exact fun i j hi => h i j hi

theorem msgRing_eq (v : List Nat) : msgRing (2 ^ K) v = Poly.ofList K (v.map (fun x : Nat => (x : ℤ))) := by
  unfold msgRing Poly.ofList
  congr 1
  funext k
  simp only [List.getD, List.getElem?_map]
  cases v[k]? <;> simp

theorem cf_msgRing (v : List Nat) {k : Nat} (hk : k < 2 ^ K) : cf (msgRing (2 ^ K) v) k = (v.getD k 0 : ℤ) := by
  unfold msgRing; rw [cf_ofCoeffs (by positivity) _ hk]

theorem msgRing_bdd {v : List Nat} {B : Nat} (h : ∀ x ∈ v, x ≤ B) : Bdd (B : ℤ) (msgRing (2 ^ K) v) := by
  intro k hk
  rw [cf_msgRing v hk, abs_of_nonneg (by positivity)]
  by_cases h' : k < v.length
  · rw [getD_eq_getElem' _ _ _ h']; exact_mod_cast h _ (List.getElem_mem h')
  · rw [List.getD_eq_default _ _ (by omega)]; simp

/-- Only the phase modulo `Q` matters. -/
theorem Encodes.congr {N t Q : Nat} {m phi phi' : Rg N} {V : ℤ} (h : Encodes t Q m phi V) (hc : Cong Q phi' phi) : Encodes t Q m phi' V := by
  obtain ⟨v, w, hv, e⟩ := h
  obtain ⟨z, hz⟩ := hc
  refine ⟨v, w + z, hv, ?_⟩
  rw [show phi' = phi + ((Q : ℤ) : Rg N) * z by rw [← hz]; ring, mul_add, e]; ring

theorem Encodes.mono {N t Q : Nat} {m phi : Rg N} {V V' : ℤ} (h : Encodes t Q m phi V) (hV : V ≤ V') : Encodes t Q m phi V' := by
  obtain ⟨v, w, hv, e⟩ := h
  exact ⟨v, w, hv.mono hV, e⟩

theorem Encodes.add {N t Q : Nat} (hN : 0 < N) {m m' phi phi' : Rg N} {V V' : ℤ} (h : Encodes t Q m phi V) (h' : Encodes t Q m' phi' V') :
    Encodes t Q (m + m') (phi + phi') (V + V') := by
  obtain ⟨v, w, hv, e⟩ := h
  obtain ⟨v', w', hv', e'⟩ := h'
  exact ⟨v + v', w + w', hv.add hN hv', by rw [mul_add, e, e']; ring⟩

theorem Encodes.sub {N t Q : Nat} (hN : 0 < N) {m m' phi phi' : Rg N} {V V' : ℤ} (h : Encodes t Q m phi V) (h' : Encodes t Q m' phi' V') :
    Encodes t Q (m - m') (phi - phi') (V + V') := by
  obtain ⟨v, w, hv, e⟩ := h
  obtain ⟨v', w', hv', e'⟩ := h'
  exact ⟨v - v', w - w', hv.sub hN hv', by rw [mul_sub, e, e']; ring⟩

theorem Encodes.mul {N t Q : Nat} (hN : 0 < N) {m phi p : Rg N} {V B : ℤ} (h : Encodes t Q m phi V) (hp : Bdd B p) :
    Encodes t Q (m * p) (phi * p) (N * V * B) := by
  obtain ⟨v, w, hv, e⟩ := h
  exact ⟨v * p, w * p, hv.mul hN hp, by rw [← mul_assoc, e]; ring⟩

/-- Extra additive error in the phase. -/
theorem Encodes.addError {N t Q : Nat} (hN : 0 < N) {m phi E : Rg N} {V B : ℤ} (h : Encodes t Q m phi V) (hE : Bdd B E) :
    Encodes t Q m (phi + E) (V + t * B) := by
  obtain ⟨v, w, hv, e⟩ := h
  have := hE.int_mul hN (t : ℤ)
  rw [abs_of_nonneg (by positivity)] at this
  exact ⟨v + ((t : ℤ) : Rg N) * E, w, hv.add hN this, by rw [mul_add, e]; ring⟩

theorem Encodes.sg {N t Q : Nat} (hN : 0 < N) {m phi : Rg N} {V : ℤ} (h : Encodes t Q m phi V) {k : Nat} (hk : Odd k)
    (hc : Nat.Coprime k N) : Encodes t Q (sg k m) (sg k phi) V := by
  obtain ⟨v, w, hv, e⟩ := h
  refine ⟨Rg.sg k v, Rg.sg k w, hv.sg hN hc, ?_⟩
  have := congrArg (Rg.sg k) e
  rw [sg_add hN, sg_add hN, sg_mul hN hk, sg_mul hN hk, sg_mul hN hk, sg_mul hN hk, sg_int hN hk, sg_int hN hk] at this
  exact this

end BfvP
end OnionPIR
