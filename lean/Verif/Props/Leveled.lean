import Verif.Spec.Leveled
import Verif.Props.Circuit
import Verif.Props.Switch
/-
Property C74: programs of circuits with modulus switching in between.
-/
namespace OnionPIR
open Rg Spec

variable {N t : Nat} {l : List Nat} {variance : Nat} {P : BfvParameters}

theorem Leveled.env_good {s : Rg N} {e : Nat → Nat} {r : Nat → Rg N} {st : Stage} {keys : Nat → LevelKeys} {B : CircuitBounds}
    (hK : (keys st.level).Good P t l s e r st.level B) {low : Nat → BfvCipherText} {m : Nat → Rg N} {V : Nat → ℤ}
    (hl : ∀ k, ∃ f0 f1 : Rg N, IsCt P st.level [f0, f1] (low k) ∧ Encodes t (levelQ l st.level) (m k) (phase s [f0, f1]) (V k)) :
    (st.env P keys low).Good t l s m e r (B.withInput V) :=
  ⟨hl, hK.key, hK.rlkParams, hK.rlk, hK.odd, hK.gk, hK.msg, hK.rgsw⟩

/-- C74: every admissible program runs to the end on well-formed inputs, its wires are ciphertexts of the last level, and they encode
the values of the program with the computed noise. -/
theorem c74_run (h : IsParams N t l variance P) (hNn : N * 2 ^ l.length ≤ 2 ^ 57) (pr : Profile) {s : Rg N} {S : ℤ} (hS : Bdd S s)
    {e : Nat → Nat} {r : Nat → Rg N} {B : Nat → CircuitBounds} {keys : Nat → LevelKeys}
    (hK : ∀ i, i < l.length → (keys i).Good P t l s e r i (B i)) (sts : List Stage) {i : Nat} {ins : Nat → BfvCipherText}
    {m : Nat → Rg N} {V : Nat → ℤ}
    (hin : ∀ k, ∃ f0 f1 : Rg N, IsCt P i [f0, f1] (ins k) ∧ Encodes t (levelQ l i) (m k) (phase s [f0, f1]) (V k))
    (hA : Admissible N t l S B i sts V) :
    ∃ outs, runs pr P keys sts ins outs ∧ ∀ k, ∃ f0 f1 : Rg N, IsCt P (lastLevel i sts) [f0, f1] (outs k) ∧
      Encodes t (levelQ l (lastLevel i sts)) (values e r sts m k) (phase s [f0, f1]) (finalNoise N t l S B i sts V k) := by
  induction sts generalizing i ins m V with
  | nil => exact ⟨ins, fun _ => rfl, hin⟩
  | cons st sts ih =>
    obtain ⟨h1, h2, h3, h4, h5⟩ := hA
    have hlow : ∀ k, ∃ low, switchCt pr (ins k) st.level = .ok low ∧ ∃ f0 f1 : Rg N, IsCt P st.level [f0, f1] low ∧
        Encodes t (levelQ l st.level) (m k) (phase s [f0, f1]) (loweredNoise N t l S i st.level V k) := by
      intro k
      obtain ⟨f0, f1, c1, c2⟩ := hin k
      obtain ⟨ct', fs', d1, d2, d3, d4⟩ := c61_switch h pr h1 h2 c1
      match fs', d3 with
      | [g0, g1], _ => exact ⟨ct', d1, g0, g1, d2, d4 s (m k) S (V k) hS c2⟩
    choose low l1 l2 using hlow
    have hE := Leveled.env_good (hK _ h2) l2
    have hmid : ∀ k, ∃ mid, (st.out k).run pr (st.env P keys low) = .ok mid ∧ ∃ f0 f1 : Rg N, IsCt P st.level [f0, f1] mid ∧
        Encodes t (levelQ l st.level) ((st.out k).value m e r) (phase s [f0, f1]) (st.noise N t l S B i V k) := by
      intro k
      obtain ⟨z, f0, f1, z1, z2, z3⟩ := c60_run h hNn pr hE (st.out k) (h3 k) (h4 k)
      exact ⟨z, z1, f0, f1, z2, z3⟩
    choose mid m1 m2 using hmid
    obtain ⟨outs, o1, o2⟩ := ih m2 h5
    exact ⟨outs, ⟨low, mid, l1, m1, o1⟩, o2⟩

/-- C74: the outputs of an admissible program are determined by its inputs. -/
theorem c74_deterministic (pr : Profile) (keys : Nat → LevelKeys) (sts : List Stage) {ins outs outs' : Nat → BfvCipherText}
    (h1 : runs pr P keys sts ins outs) (h2 : runs pr P keys sts ins outs') : outs = outs' := by
  induction sts generalizing ins with
  | nil => exact funext fun k => (h1 k).trans (h2 k).symm
  | cons st sts ih =>
    obtain ⟨low, mid, a1, a2, a3⟩ := h1
    obtain ⟨low', mid', b1, b2, b3⟩ := h2
    obtain rfl : low = low' := funext fun k => Except.ok.inj ((a1 k).symm.trans (b1 k))
    obtain rfl : mid = mid' := funext fun k => Except.ok.inj ((a2 k).symm.trans (b2 k))
    exact ih a3 b3

theorem Leveled.noise_last {S : ℤ} {B : Nat → CircuitBounds} {st : Stage} {sts : List Stage} {i : Nat} {V : Nat → ℤ}
    (hA : Admissible N t l S B i (st :: sts) V) (k : Nat) :
    4 * finalNoise N t l S B i (st :: sts) V k ≤ levelQ l (lastLevel i (st :: sts)) := by
  induction sts generalizing i st V with
  | nil => exact hA.2.2.2.1 k
  | cons st' sts ih => exact ih hA.2.2.2.2

/-- C74: decryption of the wires of an admissible program gives its values modulo `t`. -/
theorem c74_decrypts (h : IsParams N t l variance P) (hNn : N * 2 ^ l.length ≤ 2 ^ 57) (pr : Profile) {sk : SecretKey} (hk : IsKey P sk)
    {S : ℤ} (hS : Bdd S (keyRing N sk)) {e : Nat → Nat} {r : Nat → Rg N} {B : Nat → CircuitBounds} {keys : Nat → LevelKeys}
    (hK : ∀ i, i < l.length → (keys i).Good P t l (keyRing N sk) e r i (B i)) (h2t : 2 * t ≤ l.getD 0 0) (st : Stage) (sts : List Stage)
    {i : Nat} {ins : Nat → BfvCipherText} {m : Nat → Rg N} {V : Nat → ℤ}
    (hin : ∀ k, ∃ f0 f1 : Rg N, IsCt P i [f0, f1] (ins k) ∧ Encodes t (levelQ l i) (m k) (phase (keyRing N sk) [f0, f1]) (V k))
    (hA : Admissible N t l S B i (st :: sts) V) :
    ∃ outs, runs pr P keys (st :: sts) ins outs ∧ ∀ k, ∃ pt, sk.decrypt pr (outs k) = .ok pt ∧ pt.level = lastLevel i (st :: sts) ∧
      pt.values = residues t (values e r (st :: sts) m k) := by
  obtain ⟨outs, h1, h2⟩ := c74_run h hNn pr hS hK (st :: sts) hin hA
  refine ⟨outs, h1, fun k => ?_⟩
  obtain ⟨f0, f1, c1, c2⟩ := h2 k
  obtain ⟨pt, p1, -, p2, p3⟩ := c30_decrypt h hk pr (by simp) c1 h2t c2 (Leveled.noise_last hA k)
  exact ⟨pt, p1, p2, p3⟩

/-- The bounds that hold for keys produced by the library at level `i` (see `freshBounds` for level 0). -/
def Spec.keyBounds (N : Nat) (l : List Nat) (variance : Nat) (S M : ℤ) (i : Nat) : CircuitBounds where
  input _ := 0
  key := S
  rlk := 2 * variance
  gk _ := switchNoise N l i * (2 * variance)
  rgswMsg _ := M
  rgsw _ := 2 * variance + 2 * variance

/-- C74: key generation succeeds at every level for every randomness and gives keys that the theorems above accept. -/
theorem c74_keys (h : IsParams N t l variance P) {sk : SecretKey} (hk : IsKey P sk) {S : ℤ} (hS : Bdd S (keyRing N sk)) (pr : Profile)
    (hv1 : 1 ≤ variance) (hv2 : variance ≤ 16) (hl : l.length ≠ 1) (hN : N ≤ 2 ^ 31) {rs : Nat → List Nat} {e : Nat → Nat} {M : Nat}
    (hrs : ∀ j, (rs j).length ≤ N ∧ ∀ x ∈ rs j, x < 2 ^ 64 ∧ x ≤ M) (he : ∀ j, Odd (e j)) {i : Nat} (hi : i < l.length)
    {aR : Nat → Nat → Nat → Nat} (haR : ∀ j, TapeAt l i (aR j)) {rR : Nat → Nat → Nat} (hrR : ∀ j i, rR j i < 2 ^ 64)
    {aG a0 a1 : Nat → Nat → Nat → Nat → Nat} (haG : ∀ k j, TapeAt l i (aG k j)) (ha0 : ∀ k j, TapeAt l i (a0 k j)) (ha1 : ∀ k j, TapeAt l i (a1 k j))
    {rG r0 r1 : Nat → Nat → Nat → Nat} (hrG : ∀ k j i, rG k j i < 2 ^ 64) (hr0 : ∀ k j i, r0 k j i < 2 ^ 64) (hr1 : ∀ k j i, r1 k j i < 2 ^ 64) :
    ∃ K : LevelKeys, ∃ c, P.qCtxs[i]? = some c ∧ RelinearizationKey.new pr sk i aR rR = .ok K.rlk ∧
      (∀ j, ∃ sub, Substitution.new pr c (e j) = .ok sub ∧ GaliosKey.new pr sk sub i (aG j) (rG j) = .ok (K.gk j)) ∧
      (∀ j, RgswCt.encrypt pr sk ⟨P, i, .poly, rs j⟩ (a0 j) (a1 j) (r0 j) (r1 j) = .ok (K.rgsw j)) ∧
      K.Good P t l (keyRing N sk) e (fun j => msgRing N (rs j)) i (keyBounds N l variance S M i) := by
  obtain ⟨K, ext, rfl, hw, ht, hl', hv⟩ := BfvP.params h
  obtain ⟨L, hL⟩ := hw.levels i (by rw [hl']; exact hi)
  obtain ⟨rlk, k1, k2, k3, -⟩ := c38_relinearize h hk pr pr hv1 hv2 hi haR hrR
  have h2 : ∀ j, ∃ g sub, Substitution.new pr L.qCtx (e j) = .ok sub ∧ GaliosKey.new pr sk sub i (aG j) (rG j) = .ok g ∧
      GaloisFor P l i (keyRing (2 ^ K) sk) (e j) (switchNoise (2 ^ K) l i * (2 * variance)) g := by
    intro j
    obtain ⟨sub, g, h1, h2, -⟩ := c37_galois h hk pr pr hv1 hv2 hl hN hL.q (he j) (haG j) (hrG j)
    refine ⟨g, sub, h1, h2, fun pr' ct f0 f1 hct => ?_⟩
    obtain ⟨sub', g', h1', h2', h3', -⟩ := c37_galois h hk pr pr' hv1 hv2 hl hN hL.q (he j) (haG j) (hrG j)
    obtain rfl := Except.ok.inj (h1.symm.trans h1')
    obtain rfl := Except.ok.inj (h2.symm.trans h2')
    obtain ⟨ct', x0, x1, E, y1, y2, y3, y4, -⟩ := h3' ct f0 f1 hct
    exact ⟨ct', x0, x1, E, y1, y2, y3, y4⟩
  choose gk sub g1 g2 g3 using h2
  have h3 := fun j => c39_encrypt h hk pr hv1 hv2 (pt := ⟨P, i, .poly, rs j⟩) rfl hi (hrs j).1 (fun x hx => ((hrs j).2 x hx).1) (ha0 j) (ha1 j) (hr0 j) (hr1 j)
  choose rg r1' r2' using h3
  refine ⟨⟨rlk, gk, rg⟩, L.qCtx, hL.q, k1, fun j => ⟨sub j, g1 j, g2 j⟩, r1', ?_⟩
  exact ⟨hS, k2, k3, he, g3, fun j => BfvP.msgRing_bdd fun x hx => ((hrs j).2 x hx).2, fun j => ⟨_, _, rfl, r2' j⟩⟩

/-- Three levels: a product at level 0, the square under an automorphism at level 1, a sum at level 2, on fresh encryptions of `1 + 2X` and
`3X^7`. All noises are within the budget of the example parameters. -/
example : ∃ (P : BfvParameters) (sk : SecretKey) (keys : Nat → LevelKeys) (ins outs : Nat → BfvCipherText) (pt : Plaintext),
    IsParams 8 17 Ex.mods 10 P ∧ IsKey P sk ∧
    runs .debug P keys [⟨0, fun _ => .mul (.input 0) (.input 1)⟩, ⟨1, fun _ => .galois (.mul (.input 0) (.input 1)) 0⟩,
      ⟨2, fun _ => .add (.input 0) (.input 1)⟩] ins outs ∧
    sk.decrypt .debug (outs 0) = .ok pt ∧ pt.level = 2 ∧
    pt.values = residues 17 (2 * sg 9 ((msgRing 8 [1, 2] * msgRing 8 [0, 0, 0, 0, 0, 0, 0, 3]) ^ 2)) := by
  obtain ⟨P, sk, h, hk, hb⟩ := Ex.setup_key
  have h8 : ∀ k : Nat, (if k = 0 then [1, 2] else [0, 0, 0, 0, 0, 0, 0, 3] : List Nat).length ≤ 8 ∧
      ∀ x ∈ (if k = 0 then [1, 2] else [0, 0, 0, 0, 0, 0, 0, 3] : List Nat), x < 2 ^ 64 := by
    intro k; split <;> exact ⟨by norm_num, by decide⟩
  have h1 := fun k => c30_encrypt h hk .debug (by norm_num) (by norm_num) (pt := ⟨P, 0, .poly, if k = 0 then [1, 2] else [0, 0, 0, 0, 0, 0, 0, 3]⟩)
    rfl rfl (h8 k).1 (h8 k).2 (Ex.tape0 Ex.mods_gt) Ex.wordTape
  choose ins f0 f1 i1 i2 i3 using h1
  have h2 : ∀ i, ∃ K : LevelKeys, i < Ex.mods.length →
      K.Good P 17 Ex.mods (keyRing 8 sk) (fun _ => 9) (fun _ => msgRing 8 [0, 1]) i (keyBounds 8 Ex.mods 10 20 1 i) := by
    intro i
    by_cases hi : i < Ex.mods.length
    · obtain ⟨K, c, -, -, -, -, hK⟩ := c74_keys (e := fun _ => 9) (rs := fun _ => [0, 1]) (M := 1) h hk hb .debug (by norm_num)
        (by norm_num) (by decide) (by norm_num) (fun _ => ⟨by norm_num, by decide⟩) (fun _ => by decide) hi Ex.tapes (fun _ => Ex.wordTape)
        (fun _ => Ex.tapes) (fun _ => Ex.tapes) (fun _ => Ex.tapes) (fun _ _ => Ex.wordTape) (fun _ _ => Ex.wordTape) (fun _ _ => Ex.wordTape)
      exact ⟨K, fun _ => hK⟩
    · obtain ⟨K, -⟩ := c74_keys (e := fun _ => 9) (rs := fun _ => [0, 1]) (M := 1) (i := 0) h hk hb .debug (by norm_num)
        (by norm_num) (by decide) (by norm_num) (fun _ => ⟨by norm_num, by decide⟩) (fun _ => by decide) (by decide) Ex.tapes (fun _ => Ex.wordTape)
        (fun _ => Ex.tapes) (fun _ => Ex.tapes) (fun _ => Ex.tapes) (fun _ _ => Ex.wordTape) (fun _ _ => Ex.wordTape) (fun _ _ => Ex.wordTape)
      exact ⟨K, fun h => absurd h hi⟩
  choose keys hK using h2
  obtain ⟨outs, o1, o2⟩ := c74_decrypts h (by norm_num [Ex.mods]) .debug hk hb hK (by decide) ⟨0, fun _ => .mul (.input 0) (.input 1)⟩
    [⟨1, fun _ => .galois (.mul (.input 0) (.input 1)) 0⟩, ⟨2, fun _ => .add (.input 0) (.input 1)⟩] (fun k => ⟨f0 k, f1 k, i2 k, i3 k⟩) (by
      refine ⟨by norm_num, by decide, fun _ => ⟨trivial, trivial⟩, fun _ => ?_, by norm_num, by decide, fun _ => ⟨trivial, trivial⟩, fun _ => ?_,
        by norm_num, by decide, fun _ => ⟨trivial, trivial⟩, fun _ => ?_, trivial⟩ <;>
      simp only [Stage.noise, Circuit.noise, productNoise, keyBounds, CircuitBounds.withInput, loweredNoise, roundingNoise,
        show switchNoise 8 Ex.mods 0 = 8 * (1048609 + 1048721 + 1048897) by decide +kernel,
        show switchNoise 8 Ex.mods 1 = 8 * (1048609 + 1048721) by decide +kernel,
        show levelQ Ex.mods 0 = 1048609 * 1048721 * 1048897 by decide +kernel, show levelQ Ex.mods 1 = 1048609 * 1048721 by decide +kernel,
        show levelQ Ex.mods 2 = 1048609 by decide +kernel, show missing Ex.mods 0 0 = 1 by decide +kernel,
        show missing Ex.mods 0 1 = 1048897 by decide +kernel, show missing Ex.mods 1 2 = 1048721 by decide +kernel] <;>
      norm_num)
  obtain ⟨pt, p1, p2, p3⟩ := o2 0
  refine ⟨P, sk, keys, ins, outs, pt, h, hk, o1, p1, p2, ?_⟩
  rw [p3]
  simp only [values, Circuit.value, if_true, if_neg one_ne_zero]
  rw [two_mul, pow_two]

end OnionPIR
