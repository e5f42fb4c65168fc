import Verif.Spec.Readme
import Verif.Proofs.Unpack
/- The nodes of the expansion tree of the Readme. -/
namespace OnionPIR.Rg
open Spec Finset

variable {K : Nat}

theorem tr_stride {i : Nat} (hi : i ≤ K) (j : Nat) (f : Rg (2 ^ K)) : tr K i j f = ((2 ^ i : ℤ) : Rg (2 ^ K)) * stride (2 ^ K) i j f := by
  unfold tr stride ofCoeffs
  congr 1
  have hp : 0 < 2 ^ i := by positivity
  have hK : 2 ^ K = 2 ^ i * 2 ^ (K - i) := by rw [← pow_add]; congr 1; omega
  symm
  rw [← sum_subset (s₁ := (range (2 ^ (K - i))).image fun u => 2 ^ i * u)]
  · rw [sum_image fun a _ b _ h => Nat.eq_of_mul_eq_mul_left hp h]
    exact sum_congr rfl fun u _ => by dsimp only; rw [if_pos (dvd_mul_right _ _)]
  · intro x hx
    obtain ⟨u, hu, rfl⟩ := mem_image.mp hx
    rw [mem_range] at hu ⊢
    rw [hK]
    exact Nat.mul_lt_mul_of_pos_left hu hp
  · intro x hx hn
    dsimp only
    rw [if_neg, Int.cast_zero, zero_mul]
    rintro ⟨u, rfl⟩
    refine hn (mem_image.mpr ⟨u, mem_range.mpr ?_, rfl⟩)
    rw [mem_range, hK] at hx
    exact Nat.lt_of_mul_lt_mul_left hx

theorem cf_stride {N : Nat} (hN : 0 < N) (i j : Nat) (f : Rg N) {k : Nat} (hk : k < N) :
    cf (stride N i j f) k = if 2 ^ i ∣ k then cf f (j + k) else 0 := cf_ofCoeffs hN _ hk

theorem stride_pos {i j k : Nat} (hi : i ≤ K) (hj : j < 2 ^ i) (hk : k < 2 ^ K) (hd : 2 ^ i ∣ k) : j + k < 2 ^ K := by
  have hK : 2 ^ K = 2 ^ i * 2 ^ (K - i) := by rw [← pow_add]; congr 1; omega
  obtain ⟨u, rfl⟩ := hd
  rw [hK] at hk ⊢
  have h1 := Nat.lt_of_mul_lt_mul_left hk
  calc j + 2 ^ i * u < 2 ^ i + 2 ^ i * u := by omega
    _ = 2 ^ i * (u + 1) := by ring
    _ ≤ _ := Nat.mul_le_mul_left _ h1

theorem encodes_stride {t Q : Nat} {m phi : Rg (2 ^ K)} {V : ℤ} (h : Encodes t Q m phi V) {i j : Nat} (hi : i ≤ K) (hj : j < 2 ^ i) :
    Encodes t Q (stride (2 ^ K) i j m) (stride (2 ^ K) i j phi) V := by
  have hN : 0 < 2 ^ K := by positivity
  obtain ⟨v, w, hv, e⟩ := h
  refine ⟨stride (2 ^ K) i j v, stride (2 ^ K) i j w, fun k hk => ?_, ext_cf hN fun k hk => ?_⟩
  · rw [cf_stride hN _ _ _ hk]
    split_ifs with hd
    · exact hv _ (stride_pos hi hj hk hd)
    · rw [abs_zero]; exact hv.nonneg hN
  · simp only [cf_add hN, cf_int_mul hN, cf_stride hN _ _ _ hk]
    have := congrArg (fun f => cf f (j + k)) e
    simp only [cf_add hN, cf_int_mul hN] at this
    split_ifs with hd
    · exact this
    · ring

theorem encodes_int {N t Q : Nat} (hN : 0 < N) {m phi : Rg N} {V : ℤ} (h : Encodes t Q m phi V) (c : Nat) :
    Encodes t Q (((c : ℤ) : Rg N) * m) (((c : ℤ) : Rg N) * phi) (c * V) := by
  obtain ⟨v, w, hv, e⟩ := h
  have := hv.int_mul hN (c : ℤ)
  rw [abs_of_nonneg (by positivity)] at this
  exact ⟨_, ((c : ℤ) : Rg N) * w, this, by rw [mul_left_comm, e]; ring⟩

theorem cf_sg_half {i : Nat} (hi : i < K) (f : Rg (2 ^ K)) (hf : ∀ k, k < 2 ^ K → ¬2 ^ i ∣ k → cf f k = 0) {k : Nat} (hk : k < 2 ^ K) :
    cf (sg (2 ^ (K - i) + 1) f) k = (-1) ^ (k / 2 ^ i) * cf f k := by
  have hN : 0 < 2 ^ K := by positivity
  have hs : f = stride (2 ^ K) i 0 f := ext_cf hN fun k hk => by
    rw [cf_stride hN _ _ _ hk, Nat.zero_add]
    split_ifs with hd
    · rfl
    · exact hf k hk hd
  have e : sg (2 ^ (K - i) + 1) f = ofCoeffs (2 ^ K) fun k => (-1) ^ (k / 2 ^ i) * cf f k := by
    rw [hs]
    conv_lhs => unfold stride ofCoeffs
    rw [sg_sum hN, ofCoeffs]
    refine sum_congr rfl fun k hk => ?_
    rw [mem_range] at hk
    rw [cf_stride hN _ _ _ hk]
    dsimp only
    split_ifs with hd
    · obtain ⟨u, rfl⟩ := hd
      rw [sg_term hi, Nat.mul_div_cancel_left _ (by positivity)]
      push_cast
      ring
    · rw [mul_zero, Int.cast_zero, zero_mul]; exact ev_zero hN _
  rw [e, cf_ofCoeffs hN _ hk]

end OnionPIR.Rg

namespace OnionPIR.Evaluation
open Rg Spec

variable {K t : Nat} {l : List Nat} {variance : Nat} {P : BfvParameters}

theorem unpackStep_any (h : IsParams (2 ^ K) t l variance P) (pr : Profile) {s : Rg (2 ^ K)} {B : ℤ} {ev : Evaluation} {xPows : List Poly}
    {i : Nat} {g : GaliosKey} (hg : ev.gk.lookup (2 ^ (K - i) + 1) = some g) (hgal : GaloisFor P l 0 s (2 ^ (K - i) + 1) B g)
    {xp : Poly} (hx : xPows[i]? = some xp) {m : Rg (2 ^ K)} (hxp : PowerAt P 0 m xp)
    {bits : List BfvCipherText} {j : Nat} (hj : j + 2 ^ i < bits.length) {ct : BfvCipherText} (hct : bits[j]? = some ct)
    {f0 f1 : Rg (2 ^ K)} (h1 : IsCt P 0 [f0, f1] ct) :
    ∃ ce co, ∃ g0 g1 r0 r1 E : Rg (2 ^ K), unpackStep pr ev xPows (2 ^ (K - i) + 1) i bits j = .ok ((bits.set j ce).set (j + 2 ^ i) co) ∧
      IsCt P 0 [g0, g1] ce ∧ IsCt P 0 [r0 * m, r1 * m] co ∧ Bdd B E ∧
      Cong (levelQ l 0) (phase s [g0, g1]) (phase s [f0, f1] + (sg (2 ^ (K - i) + 1) (phase s [f0, f1]) + E)) ∧
      Cong (levelQ l 0) (phase s [r0, r1]) (phase s [f0, f1] - (sg (2 ^ (K - i) + 1) (phase s [f0, f1]) + E)) := by
  obtain ⟨cr, r0, r1, E', g1, g2, g3, g4⟩ := hgal pr ct f0 f1 h1
  obtain ⟨ce, e1, e2, e3, -⟩ := c32_add h pr h1 g2 s
  obtain ⟨co, o1, o2, o3, -⟩ := c32_sub h pr h1 g2 s
  obtain ⟨ext, L, hw, hL, -, rfl, -⟩ := level_zero h
  rw [(BfvP.powerAt_iff hL _ _).mp hxp] at hx
  obtain ⟨o21, o22, o23⟩ := (BfvP.isCt_iff hL _ _).mp o2
  refine ⟨ce, { co with cts := [enc L.qCtx .ntt ((f0 - r0) * m), enc L.qCtx .ntt ((f1 - r1) * m)] }, _, _, f0 - r0, f1 - r1, E', ?_, e2,
    (BfvP.isCt_iff hL _ _).mpr ⟨o21, o22, rfl⟩, g3, ?_, ?_⟩
  · unfold unpackStep
    rw [idx_of hct, res_ok_bind, hg]
    simp only [unwrapR, res_ok_bind, g1, e1, o1, idx_of hx, Poly.toNtt_enc hL.wf.ctx pr, o23, List.map_cons, List.map_nil,
      show ∀ a b : Poly, idx [a, b] 0 = .ok a from fun _ _ => rfl, show ∀ a b : Poly, idx [a, b] 1 = .ok b from fun _ _ => rfl,
      Poly.mul_enc hL.wf.ctx pr]
    rw [setR_ok (lt_of_le_of_lt (Nat.le_add_right _ _) hj), res_ok_bind, setR_ok (by rw [List.length_set]; exact hj)]
  · rw [e3]; exact cong_add (cong_refl _) g4
  · rw [o3]; exact cong_sub (cong_refl _) g4

theorem unpackStages_some (h : IsParams (2 ^ K) t l variance P) (hK : K ≤ 62) (pr : Profile) {s : Rg (2 ^ K)} {B B0 B1 : ℤ} {ev : Evaluation}
    (hev : IsEval P l s B B0 B1 ev) {xPows : List Poly} (hx : IsMonomials (2 ^ K) P xPows) {f0 f1 : Rg (2 ^ K)} {ct : BfvCipherText}
    (hct : IsCt P 0 [f0, f1] ct) {n : Nat} (hn : n ≤ K) :
    ∃ bits, foldR (unpackStage pr ev xPows (2 ^ K)) (List.replicate (2 ^ K) ct) (List.range n) = .ok bits ∧ bits.length = 2 ^ K ∧
      ∀ j, j < 2 ^ n → ∃ c, bits[j]? = some c ∧ Good P l s B (phase s [f0, f1]) n j c := by
  have hN : 0 < 2 ^ K := by positivity
  obtain ⟨r, hr, h1, h2⟩ := foldR_range_ok (f := unpackStage pr ev xPows (2 ^ K)) (n := n)
    (Inv := fun i (b : List BfvCipherText) => b.length = 2 ^ K ∧
      ∀ j, j < 2 ^ i → ∃ c, b[j]? = some c ∧ Good P l s B (phase s [f0, f1]) i j c) (s := List.replicate (2 ^ K) ct)
    ⟨List.length_replicate, fun j hj => by
      have hj : j = 0 := by simpa using hj
      subst hj
      refine ⟨ct, by rw [List.getElem?_replicate, if_pos hN], f0, f1, 0, hct, ?_, ?_⟩
      · simpa using Bdd.zero hN
      · rw [tr_zero, add_zero]; exact cong_refl _⟩
    (by
      rintro i b hi ⟨h1, h2⟩
      obtain ⟨b', e1, e2, e3⟩ := unpackStage_ok h hK pr hev hx (lt_of_lt_of_le hi hn) h1 h2
      exact ⟨b', e1, e2, e3⟩)
  exact ⟨r, hr, h1, h2⟩

end OnionPIR.Evaluation
