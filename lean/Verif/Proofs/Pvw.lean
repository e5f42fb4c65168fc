import Verif.Model.Pvw
import Verif.Proofs.Modulus
import Verif.Proofs.Utils
import Verif.Proofs.BfvParams
import Mathlib.Data.ZMod.Basic
import Mathlib.Tactic.Ring
/- PVW encryption: the loops of src/pvw.rs over `ZMod q`. -/
namespace OnionPIR.Pvw

variable {q : Modulus}

/-- `n` canonical residues. -/
def Vec (p n : Nat) (a : List Nat) : Prop := a.length = n ∧ ∀ i, i < n → a.getD i 0 < p

theorem Vec.idx {p n : Nat} {a : List Nat} (h : Vec p n a) {i : Nat} (hi : i < n) : idx a i = .ok (a.getD i 0) :=
  idx_getD 0 (by rw [h.1]; exact hi)

theorem Vec.mem {p n : Nat} {a : List Nat} (h : Vec p n a) : ∀ x ∈ a, x < p := by
  intro x hx
  obtain ⟨i, hi, rfl⟩ := List.getElem_of_mem hx
  have := h.2 i (by rw [← h.1]; exact hi)
  rwa [List.getD_eq_getElem _ _ hi] at this

theorem getD_map_range {α : Type _} {n : Nat} {f : Nat → α} {i : Nat} (d : α) (hi : i < n) : ((List.range n).map f).getD i d = f i := by
  rw [List.getD_eq_getElem _ _ (by simpa using hi), List.getElem_map, List.getElem_range]

theorem getD_set {l : List Nat} {i j v : Nat} (hj : j < l.length) : (l.set i v).getD j 0 = if i = j then v else l.getD j 0 := by
  simp only [List.getD, List.getElem?_set]
  split_ifs <;> simp_all

theorem randomVec_getD {n : Nat} {tape : Nat → Nat} {i : Nat} (hi : i < n) : (randomVec n tape).getD i 0 = tape i :=
  getD_map_range 0 hi

theorem vec_randomVec {p n : Nat} {tape : Nat → Nat} (h : ∀ i, tape i < p) : Vec p n (randomVec n tape) := by
  refine ⟨by simp [randomVec], fun i hi => ?_⟩
  rw [randomVec_getD hi]
  exact h i

theorem dot_ok (hq : q.WF) (pr : Profile) {n : Nat} {sk : PvwSk} {l : Nat} {s a : List Nat}
    (hl : sk[l]? = some s) (hs : Vec q.p n s) (ha : Vec q.p n a) :
    ∃ v, dot pr q n sk l a = .ok v ∧ v < q.p ∧ (v : ZMod q.p) = ∑ i ∈ Finset.range n, (s.getD i 0 : ZMod q.p) * (a.getD i 0 : ZMod q.p) := by
  have hp := hq.pos
  obtain ⟨v, h1, h2, h3⟩ := foldR_range_ok (f := dotStep pr q sk l a) (n := n) (s := 0)
    (fun k v => v < q.p ∧ (v : ZMod q.p) = ∑ i ∈ Finset.range k, (s.getD i 0 : ZMod q.p) * (a.getD i 0 : ZMod q.p))
    ⟨hp, by simp⟩
    (by
      rintro i v hi ⟨h1, h2⟩
      refine ⟨(v + s.getD i 0 * a.getD i 0 % q.p) % q.p, ?_, Nat.mod_lt _ hp, ?_⟩
      · unfold dotStep
        rw [idx_of hl, res_ok_bind, hs.idx hi, res_ok_bind, ha.idx hi, res_ok_bind, Modulus.mul_ok hq pr (hs.2 i hi) (ha.2 i hi), res_ok_bind,
          Modulus.add_ok hq pr h1 (Nat.mod_lt _ hp)]
      · rw [ZMod.natCast_mod, Nat.cast_add, ZMod.natCast_mod, Nat.cast_mul, Finset.sum_range_succ, h2])
  exact ⟨v, h1, h2, h3⟩

theorem accStep_fold (hq : q.WF) (pr : Profile) {n : Nat} {pk : PvwPk} {comp : PvwCiphertext → List Nat} {m : Nat}
    {c : PvwCiphertext} {src acc : List Nat} (hc : pk[m]? = some c) (hsrc : comp c = src) (hs : Vec q.p n src) (ha : Vec q.p n acc) {e : Nat}
    (he : e < q.p) : ∃ acc', foldR (accStep pr q pk comp m e) acc (List.range n) = .ok acc' ∧ Vec q.p n acc' ∧
      ∀ i, i < n → (acc'.getD i 0 : ZMod q.p) = (acc.getD i 0 : ZMod q.p) + (src.getD i 0 : ZMod q.p) * e := by
  have hp := hq.pos
  obtain ⟨v, h1, h2, h3⟩ := foldR_range_ok (f := accStep pr q pk comp m e) (n := n) (s := acc)
    (fun k v => Vec q.p n v ∧ ∀ i, i < n → (v.getD i 0 : ZMod q.p) =
      (acc.getD i 0 : ZMod q.p) + if i < k then (src.getD i 0 : ZMod q.p) * e else 0)
    ⟨ha, by simp⟩
    (by
      rintro i v hi ⟨h1, h2⟩
      refine ⟨v.set i ((v.getD i 0 + src.getD i 0 * e % q.p) % q.p), ?_, ⟨by rw [List.length_set, h1.1], ?_⟩, ?_⟩
      · unfold accStep
        rw [idx_of hc, res_ok_bind, hsrc, hs.idx hi, res_ok_bind, Modulus.mul_ok hq pr (hs.2 i hi) he, res_ok_bind, h1.idx hi, res_ok_bind,
          Modulus.add_ok hq pr (h1.2 i hi) (Nat.mod_lt _ hp), res_ok_bind, if_pos (by rw [h1.1]; exact hi)]
      · intro j hj
        rw [getD_set (by rw [h1.1]; exact hj)]
        split_ifs
        · exact Nat.mod_lt _ hp
        · exact h1.2 j hj
      · intro j hj
        rw [getD_set (by rw [h1.1]; exact hj)]
        split_ifs with g1 g2 g2
        · subst g1
          rw [ZMod.natCast_mod, Nat.cast_add, ZMod.natCast_mod, Nat.cast_mul, h2 i hj, if_neg (by omega)]
          ring
        · omega
        · rw [h2 j hj, if_pos (by omega)]
        · rw [h2 j hj, if_neg (by omega)])
  refine ⟨v, h1, h2, fun i hi => ?_⟩
  rw [h3 i hi, if_pos hi]

theorem cast_emod {p : Nat} (hp : 0 < p) (x : Int) : (((x % (p : Int)).toNat : Nat) : ZMod p) = (x : ZMod p) := by
  have : ((x % (p : Int)).toNat : Int) = x % p := Int.toNat_of_nonneg (Int.emod_nonneg _ (by omega))
  rw [← Int.cast_natCast, this, ZMod.intCast_mod]

variable {params : PvwParams}

theorem pkColumn_ok (hq : q.WF) (pr : Profile) {sk : PvwSk} {a : List (List Nat)} (hv1 : 1 ≤ params.variance) (hv2 : params.variance ≤ 16)
    {rng : Nat → Nat → Nat} (hr : ∀ l i, rng l i < 2 ^ 64) (hsk : ∀ l, l < params.ell → ∃ s, sk[l]? = some s ∧ Vec q.p params.n s)
    (ha : ∀ m, m < params.m → ∃ r, a[m]? = some r ∧ Vec q.p params.n r) {l : Nat} (hl : l < params.ell) :
    ∃ col, pkColumn pr params q sk a rng l = .ok col ∧ Vec q.p params.m col ∧ ∀ m, m < params.m →
      (col.getD m 0 : ZMod q.p) = ∑ i ∈ Finset.range params.n, (((sk.getD l []).getD i 0 : Nat) : ZMod q.p) * (((a.getD m []).getD i 0 : Nat) : ZMod q.p) +
        ((cbdValue (rng l) params.variance m : Int) : ZMod q.p) := by
  have hp := hq.pos
  obtain ⟨s, hs1, hs2⟩ := hsk l hl
  have hred : q.reduceVecI64 pr ((List.range params.m).map (cbdValue (rng l) params.variance)) =
      .ok ((List.range params.m).map fun m => (cbdValue (rng l) params.variance m % (q.p : Int)).toNat) := by
    unfold Modulus.reduceVecI64
    rw [mapR_ok (g := fun x : Int => (x % (q.p : Int)).toNat), List.map_map]
    · rfl
    · intro x hx
      obtain ⟨i, -, rfl⟩ := List.mem_map.mp hx
      obtain ⟨b1, b2⟩ := cbdValue_bound (rng l) params.variance i
      exact Modulus.reduceI64_ok hq pr (by omega) (by omega)
  have entry : ∀ m, m < params.m → ∃ v, pkEntry pr q params.n sk l a ((List.range params.m).map fun m => (cbdValue (rng l) params.variance m % (q.p : Int)).toNat) m = .ok v ∧
      v < q.p ∧ (v : ZMod q.p) = ∑ i ∈ Finset.range params.n, (((sk.getD l []).getD i 0 : Nat) : ZMod q.p) * (((a.getD m []).getD i 0 : Nat) : ZMod q.p) +
        ((cbdValue (rng l) params.variance m : Int) : ZMod q.p) := by
    intro m hm
    obtain ⟨r, hr1, hr2⟩ := ha m hm
    obtain ⟨v, h1, h2, h3⟩ := dot_ok hq pr hs1 hs2 hr2
    have hlt : (cbdValue (rng l) params.variance m % (q.p : Int)).toNat < q.p := by
      have := Int.emod_lt_of_pos (cbdValue (rng l) params.variance m) (show (0 : Int) < q.p by omega)
      omega
    refine ⟨(v + (cbdValue (rng l) params.variance m % (q.p : Int)).toNat) % q.p, ?_, Nat.mod_lt _ hp, ?_⟩
    · unfold pkEntry
      rw [idx_of hr1, res_ok_bind, h1, res_ok_bind, idx_getD 0 (by simpa using hm), res_ok_bind, getD_map_range 0 hm,
        Modulus.add_ok hq pr h2 hlt]
    · rw [ZMod.natCast_mod, Nat.cast_add, h3, cast_emod hp]
      simp only [List.getD, hs1, hr1, Option.getD_some]
  have : ∀ m, ∃ v, m < params.m → pkEntry pr q params.n sk l a ((List.range params.m).map fun m => (cbdValue (rng l) params.variance m % (q.p : Int)).toNat) m = .ok v ∧
      v < q.p ∧ (v : ZMod q.p) = ∑ i ∈ Finset.range params.n, (((sk.getD l []).getD i 0 : Nat) : ZMod q.p) * (((a.getD m []).getD i 0 : Nat) : ZMod q.p) +
        ((cbdValue (rng l) params.variance m : Int) : ZMod q.p) := by
    intro m
    rcases lt_or_ge m params.m with hm | hm
    · obtain ⟨v, hv⟩ := entry m hm
      exact ⟨v, fun _ => hv⟩
    · exact ⟨0, fun h => absurd h (by omega)⟩
  choose g hg using this
  refine ⟨(List.range params.m).map g, ?_, ⟨by simp, fun m hm => ?_⟩, fun m hm => ?_⟩
  · unfold pkColumn
    rw [sampleVecCbd_ok pr (hr l) hv1 hv2, res_ok_bind, hred, res_ok_bind]
    exact mapR_ok fun m hm => (hg m (List.mem_range.mp hm)).1
  · rw [getD_map_range 0 hm]; exact (hg m hm).2.1
  · rw [getD_map_range 0 hm]; exact (hg m hm).2.2

/-- What the public key generated by `gen_pk` contains. -/
def PkFor (p : Nat) (params : PvwParams) (sk : PvwSk) (err : Nat → Nat → Int) (pk : PvwPk) : Prop :=
  ∀ m, m < params.m → ∃ c, pk[m]? = some c ∧ Vec p params.n c.a ∧ Vec p params.ell c.b ∧ ∀ l, l < params.ell →
    (c.b.getD l 0 : ZMod p) = ∑ i ∈ Finset.range params.n, (((sk.getD l []).getD i 0 : Nat) : ZMod p) * ((c.a.getD i 0 : Nat) : ZMod p) + ((err l m : Int) : ZMod p)

theorem genPk_exact (hn : Modulus.new params.q = .ok q) (pr : Profile) {sk : PvwSk} (hv1 : 1 ≤ params.variance) (hv2 : params.variance ≤ 16)
    {aTape : Nat → Nat → Nat} (ha : ∀ m i, aTape m i < params.q)
    {rng : Nat → Nat → Nat} (hr : ∀ l i, rng l i < 2 ^ 64) (hsk : ∀ l, l < params.ell → ∃ s, sk[l]? = some s ∧ Vec params.q params.n s) :
    ∃ pk, genPk pr sk params aTape rng = .ok pk ∧ pk.length = params.m ∧
      (∀ m, m < params.m → pk[m]?.map PvwCiphertext.a = some (randomVec params.n (aTape m))) ∧
      PkFor params.q params sk (fun l m => cbdValue (rng l) params.variance m) pk := by
  obtain ⟨-, -, hqp, hq⟩ := Modulus.new_inv hn
  rw [← hqp] at ha hsk ⊢
  have hrow : ∀ m, m < params.m → ∃ r, ((List.range params.m).map fun m => randomVec params.n (aTape m))[m]? = some r ∧ Vec q.p params.n r :=
    fun m hm => ⟨randomVec params.n (aTape m), by rw [List.getElem?_map, List.getElem?_range hm]; rfl, vec_randomVec (ha m)⟩
  have : ∀ l, ∃ col, l < params.ell → _ := fun l => by
    rcases lt_or_ge l params.ell with hl | hl
    · obtain ⟨v, hv⟩ := pkColumn_ok hq pr hv1 hv2 hr hsk hrow hl
      exact ⟨v, fun _ => hv⟩
    · exact ⟨[], fun h => absurd h (by omega)⟩
  choose g hg using this
  have hcols : mapR (pkColumn pr params q sk ((List.range params.m).map fun m => randomVec params.n (aTape m)) rng) (List.range params.ell) =
      .ok ((List.range params.ell).map g) := mapR_ok fun l hl => (hg l (List.mem_range.mp hl)).1
  refine ⟨(List.range params.m).map fun m => { a := randomVec params.n (aTape m), b := ((List.range params.ell).map g).map fun col => col.getD m 0 }, ?_, by simp,
    fun m hm => by rw [List.getElem?_map, List.getElem?_range hm]; rfl, ?_⟩
  · unfold genPk
    rw [hn, res_ok_bind]
    simp only [hcols, res_ok_bind]
    refine mapR_ok fun m hm => ?_
    have hm' := List.mem_range.mp hm
    rw [mapR_ok (g := fun col : List Nat => col.getD m 0), res_ok_bind, idx_getD [] (by simpa using hm'), res_ok_bind, getD_map_range [] hm']
    intro col hcol
    obtain ⟨l, hl, rfl⟩ := List.mem_map.mp hcol
    exact (hg l (List.mem_range.mp hl)).2.1.idx hm'
  · intro m hm
    refine ⟨_, by rw [List.getElem?_map, List.getElem?_range hm]; rfl, vec_randomVec (ha m), ⟨by simp, fun l hl => ?_⟩, fun l hl => ?_⟩
    · dsimp only
      rw [List.map_map, getD_map_range 0 hl]
      exact (hg l hl).2.1.2 m hm
    · dsimp only
      rw [List.map_map, getD_map_range 0 hl]
      have := (hg l hl).2.2 m hm
      rw [getD_map_range [] hm] at this
      exact this

theorem genPk_ok (hn : Modulus.new params.q = .ok q) (pr : Profile) {sk : PvwSk} (hv1 : 1 ≤ params.variance) (hv2 : params.variance ≤ 16)
    {aTape : Nat → Nat → Nat} (ha : ∀ m i, aTape m i < params.q)
    {rng : Nat → Nat → Nat} (hr : ∀ l i, rng l i < 2 ^ 64) (hsk : ∀ l, l < params.ell → ∃ s, sk[l]? = some s ∧ Vec params.q params.n s) :
    ∃ pk, genPk pr sk params aTape rng = .ok pk ∧ pk.length = params.m ∧
      PkFor params.q params sk (fun l m => cbdValue (rng l) params.variance m) pk :=
  let ⟨pk, h1, h2, _, h3⟩ := genPk_exact hn pr hv1 hv2 ha hr hsk
  ⟨pk, h1, h2, h3⟩

theorem encrypt_entries (hn : Modulus.new params.q = .ok q) (pr : Profile) {sk : PvwSk} {err : Nat → Nat → Int} {pk : PvwPk}
    (hpk : PkFor params.q params sk err pk) {msg : List Nat} (hlen : msg.length = params.ell) (hbit : ∀ x ∈ msg, params.q / 2 * x < params.q)
    {e : Nat → Nat} (he : ∀ m, e m < 2) :
    ∃ ct, encrypt pr pk params msg e = .ok ct ∧ Vec params.q params.n ct.a ∧ Vec params.q params.ell ct.b ∧ ∀ l, l < params.ell →
      (ct.b.getD l 0 : ZMod params.q) = ∑ i ∈ Finset.range params.n, (((sk.getD l []).getD i 0 : Nat) : ZMod params.q) * ((ct.a.getD i 0 : Nat) : ZMod params.q) +
        ((∑ m ∈ Finset.range params.m, err l m * (e m : Int) + ((params.q / 2 * msg.getD l 0 : Nat) : Int) : Int) : ZMod params.q) := by
  obtain ⟨h2, h62, hqp, hq⟩ := Modulus.new_inv hn
  have hp := hq.pos
  rw [← hqp] at hpk ⊢
  have vz : ∀ n, Vec q.p n (List.replicate n 0) := fun n => ⟨by simp, fun i hi => by
    rw [List.getD_eq_getElem _ _ (by simpa using hi), List.getElem_replicate]; exact hp⟩
  have gz : ∀ n i, (List.replicate n 0).getD i 0 = 0 := fun n i => by
    simp only [List.getD, List.getElem?_replicate]; split_ifs <;> rfl
  obtain ⟨st, h1, hb, ha, hs⟩ := foldR_range_ok (f := encryptStep pr params q pk e) (n := params.m)
    (s := (List.replicate params.ell 0, List.replicate params.n 0))
    (fun k st => Vec q.p params.ell st.1 ∧ Vec q.p params.n st.2 ∧ ∀ l, l < params.ell → (st.1.getD l 0 : ZMod q.p) =
      ∑ i ∈ Finset.range params.n, (((sk.getD l []).getD i 0 : Nat) : ZMod q.p) * ((st.2.getD i 0 : Nat) : ZMod q.p) +
        ((∑ m ∈ Finset.range k, err l m * (e m : Int) : Int) : ZMod q.p))
    ⟨vz _, vz _, fun l hl => by simp [gz]⟩
    (by
      rintro k ⟨b, a⟩ hk ⟨hb, ha, hs⟩
      dsimp only at hb ha hs
      obtain ⟨c, c1, c2, c3, c4⟩ := hpk k hk
      have hek : e k < q.p := by have := he k; have := hq.two_le; omega
      obtain ⟨b', d1, d2, d3⟩ := accStep_fold (comp := PvwCiphertext.b) hq pr c1 rfl c3 hb hek
      obtain ⟨a', f1, f2, f3⟩ := accStep_fold (comp := PvwCiphertext.a) hq pr c1 rfl c2 ha hek
      refine ⟨(b', a'), ?_, d2, f2, ?_⟩
      · unfold encryptStep
        rw [d1, res_ok_bind, f1]; rfl
      · intro l hl
        dsimp only
        rw [d3 l hl, hs l hl, c4 l hl, Finset.sum_range_succ]
        have : ∑ i ∈ Finset.range params.n, (((sk.getD l []).getD i 0 : Nat) : ZMod q.p) * ((a'.getD i 0 : Nat) : ZMod q.p) =
            ∑ i ∈ Finset.range params.n, (((sk.getD l []).getD i 0 : Nat) : ZMod q.p) * ((a.getD i 0 : Nat) : ZMod q.p) +
            (∑ i ∈ Finset.range params.n, (((sk.getD l []).getD i 0 : Nat) : ZMod q.p) * ((c.a.getD i 0 : Nat) : ZMod q.p)) * e k := by
          rw [Finset.sum_mul, ← Finset.sum_add_distrib]
          exact Finset.sum_congr rfl fun i hi => by rw [f3 i (Finset.mem_range.mp hi)]; ring
        rw [this]
        push_cast
        ring)
  have hz : zipMutM (addMessage pr params q) st.1 msg = .ok (List.zipWith (fun v mv => (v + params.q / 2 * mv) % q.p) st.1 msg) := by
    apply zipMutM_ok (by rw [hb.1, hlen])
    rintro ⟨v, mv⟩ hvm
    have hv := hb.mem v (List.of_mem_zip hvm).1
    have hm := hbit mv (List.of_mem_zip hvm).2
    have hh : params.q / 2 * mv < q.p := by rw [hqp]; exact hm
    unfold addMessage
    rw [mulW_ok (a := params.q / 2) (b := mv) (by omega), res_ok_bind, Modulus.add_ok hq pr hv hh]
  have hlz : (List.zipWith (fun v mv => (v + params.q / 2 * mv) % q.p) st.1 msg).length = params.ell := by
    rw [List.length_zipWith, hb.1, hlen, Nat.min_self]
  have hget : ∀ l, l < params.ell → (List.zipWith (fun v mv => (v + params.q / 2 * mv) % q.p) st.1 msg).getD l 0 =
      (st.1.getD l 0 + params.q / 2 * msg.getD l 0) % q.p := by
    intro l hl
    rw [List.getD_eq_getElem _ _ (by omega), List.getElem_zipWith, List.getD_eq_getElem _ _ (by rw [hb.1]; exact hl), List.getD_eq_getElem _ _ (by omega)]
  refine ⟨⟨st.2, List.zipWith (fun v mv => (v + params.q / 2 * mv) % q.p) st.1 msg⟩, ?_, ha, ⟨hlz, fun l hl => ?_⟩, fun l hl => ?_⟩
  · unfold encrypt
    rw [hn, res_ok_bind, h1, res_ok_bind, hz]; rfl
  · dsimp only; rw [hget l hl]; exact Nat.mod_lt _ hp
  · dsimp only; rw [hget l hl, ZMod.natCast_mod, Nat.cast_add, hs l hl, Int.cast_add, Int.cast_natCast, show params.q / 2 = q.p / 2 by rw [hqp]]
    ring

theorem encrypt_ok (hn : Modulus.new params.q = .ok q) (pr : Profile) {sk : PvwSk} {err : Nat → Nat → Int} {pk : PvwPk}
    (hpk : PkFor params.q params sk err pk) {msg : List Nat} (hlen : msg.length = params.ell) (hbit : ∀ x ∈ msg, x < 2)
    {e : Nat → Nat} (he : ∀ m, e m < 2) :
    ∃ ct, encrypt pr pk params msg e = .ok ct ∧ Vec params.q params.n ct.a ∧ Vec params.q params.ell ct.b ∧ ∀ l, l < params.ell →
      (ct.b.getD l 0 : ZMod params.q) = ∑ i ∈ Finset.range params.n, (((sk.getD l []).getD i 0 : Nat) : ZMod params.q) * ((ct.a.getD i 0 : Nat) : ZMod params.q) +
        ((∑ m ∈ Finset.range params.m, err l m * (e m : Int) + ((params.q / 2 * msg.getD l 0 : Nat) : Int) : Int) : ZMod params.q) :=
  encrypt_entries hn pr hpk hlen (fun x hx => by
    have h2 := (Modulus.new_inv hn).1
    have : params.q / 2 * x ≤ params.q / 2 * 1 := Nat.mul_le_mul_left _ (by have := hbit x hx; omega)
    omega) he

/-- The ciphertext made of any public key of canonical values. -/
theorem encrypt_exact (hn : Modulus.new params.q = .ok q) (pr : Profile) {pk : PvwPk}
    (hpk : ∀ m, m < params.m → ∃ c, pk[m]? = some c ∧ Vec params.q params.n c.a ∧ Vec params.q params.ell c.b) {msg : List Nat}
    (hlen : msg.length = params.ell) (hbit : ∀ x ∈ msg, x < 2) {e : Nat → Nat} (he : ∀ m, e m < 2) :
    ∃ ct, encrypt pr pk params msg e = .ok ct ∧ Vec params.q params.n ct.a ∧ Vec params.q params.ell ct.b ∧
      (∀ i, i < params.n → (ct.a.getD i 0 : ZMod params.q) =
        ∑ m ∈ Finset.range params.m, (((pk.getD m ⟨[], []⟩).a.getD i 0 : Nat) : ZMod params.q) * (e m : ZMod params.q)) ∧
      ∀ l, l < params.ell → (ct.b.getD l 0 : ZMod params.q) =
        ∑ m ∈ Finset.range params.m, (((pk.getD m ⟨[], []⟩).b.getD l 0 : Nat) : ZMod params.q) * (e m : ZMod params.q) +
          ((params.q / 2 * msg.getD l 0 : Nat) : ZMod params.q) := by
  obtain ⟨h2, h62, hqp, hq⟩ := Modulus.new_inv hn
  have hp := hq.pos
  have hpk' : PkFor params.q params [] (fun l m => ((pk.getD m ⟨[], []⟩).b.getD l 0 : Nat)) pk := by
    intro m hm
    obtain ⟨c, c1, c2, c3⟩ := hpk m hm
    refine ⟨c, c1, c2, c3, fun l hl => ?_⟩
    simp [List.getD, c1]
  obtain ⟨ct, g1, g2, g3, g4⟩ := encrypt_ok hn pr hpk' hlen hbit he
  refine ⟨ct, g1, g2, g3, ?_, fun l hl => ?_⟩
  · rw [← hqp] at hpk ⊢
    have vz : ∀ n, Vec q.p n (List.replicate n 0) := fun n => ⟨by simp, fun i hi => by
      rw [List.getD_eq_getElem _ _ (by simpa using hi), List.getElem_replicate]; exact hp⟩
    have gz : ∀ n i, (List.replicate n 0).getD i 0 = 0 := fun n i => by
      simp only [List.getD, List.getElem?_replicate]; split_ifs <;> rfl
    obtain ⟨st, h1, hb, ha, hs⟩ := foldR_range_ok (f := encryptStep pr params q pk e) (n := params.m)
      (s := (List.replicate params.ell 0, List.replicate params.n 0))
      (fun k st => Vec q.p params.ell st.1 ∧ Vec q.p params.n st.2 ∧ ∀ i, i < params.n → (st.2.getD i 0 : ZMod q.p) =
        ∑ m ∈ Finset.range k, (((pk.getD m ⟨[], []⟩).a.getD i 0 : Nat) : ZMod q.p) * (e m : ZMod q.p))
      ⟨vz _, vz _, fun i hi => by simp [gz]⟩
      (by
        rintro k ⟨b, a⟩ hk ⟨hb, ha, hs⟩
        dsimp only at hb ha hs
        obtain ⟨c, c1, c2, c3⟩ := hpk k hk
        have hek : e k < q.p := by have := he k; have := hq.two_le; omega
        obtain ⟨b', d1, d2, d3⟩ := accStep_fold (comp := PvwCiphertext.b) hq pr c1 rfl c3 hb hek
        obtain ⟨a', f1, f2, f3⟩ := accStep_fold (comp := PvwCiphertext.a) hq pr c1 rfl c2 ha hek
        refine ⟨(b', a'), ?_, d2, f2, ?_⟩
        · unfold encryptStep
          rw [d1, res_ok_bind, f1]; rfl
        · intro i hi
          dsimp only
          rw [f3 i hi, hs i hi, Finset.sum_range_succ]
          simp [List.getD, c1])
    have hct := g1
    unfold encrypt at hct
    rw [hn, res_ok_bind, h1, res_ok_bind] at hct
    cases hz : zipMutM (addMessage pr params q) st.1 msg with
    | error p => rw [hz] at hct; cases hct
    | ok b =>
      rw [hz, res_ok_bind] at hct
      cases hct
      exact hs
  · rw [g4 l hl, Finset.sum_eq_zero (fun i _ => by simp), zero_add, Int.cast_add, Int.cast_sum, Int.cast_natCast]
    simp only [Int.cast_mul, Int.cast_natCast]

theorem decrypt_phases (hn : Modulus.new params.q = .ok q) (pr : Profile) {sk : PvwSk}
    (hsk : ∀ l, l < params.ell → ∃ s, sk[l]? = some s ∧ Vec params.q params.n s)
    {ct : PvwCiphertext} (ha : Vec params.q params.n ct.a) (hb : Vec params.q params.ell ct.b) {E : Nat → Int}
    (hE : ∀ l, l < params.ell → (ct.b.getD l 0 : ZMod params.q) =
      ∑ i ∈ Finset.range params.n, (((sk.getD l []).getD i 0 : Nat) : ZMod params.q) * ((ct.a.getD i 0 : Nat) : ZMod params.q) + (E l : ZMod params.q)) :
    foldR (decryptStep pr params q sk ct.a) ct.b (List.range params.ell) = .ok ((List.range params.ell).map fun l => (E l % (params.q : Int)).toNat) := by
  obtain ⟨h2, h62, hqp, hq⟩ := Modulus.new_inv hn
  have hp := hq.pos
  have hE' : ∀ l, (E l % (params.q : Int)).toNat < params.q := fun l => by
    have := Int.emod_lt_of_pos (E l) (show (0 : Int) < params.q by omega)
    omega
  obtain ⟨b, h1, hb1, hb2⟩ := foldR_range_ok (f := decryptStep pr params q sk ct.a) (n := params.ell) (s := ct.b)
    (fun k b => b.length = params.ell ∧ ∀ l, l < params.ell → b.getD l 0 = if l < k then (E l % (params.q : Int)).toNat else ct.b.getD l 0)
    ⟨hb.1, by simp⟩
    (by
      rintro k b hk ⟨hb1, hb2⟩
      obtain ⟨s, s1, s2⟩ := hsk k hk
      rw [← hqp] at s2
      obtain ⟨v, d1, d2, d3⟩ := dot_ok hq pr s1 s2 (by rw [hqp]; exact ha)
      have hbk : b.getD k 0 = ct.b.getD k 0 := by rw [hb2 k hk, if_neg (by omega)]
      have hlt : ct.b.getD k 0 < q.p := by rw [hqp]; exact hb.2 k hk
      refine ⟨b.set k (E k % (params.q : Int)).toNat, ?_, by simpa using hb1, ?_⟩
      · unfold decryptStep
        rw [d1, res_ok_bind, idx_getD 0 (by omega), res_ok_bind, hbk, Modulus.sub_ok hq pr hlt d2, res_ok_bind,
          if_pos (by omega)]
        congr 2
        rw [hqp] at d2 d3 hlt ⊢
        rw [← Nat.mod_eq_of_lt (hE' k)]
        apply (ZMod.natCast_eq_natCast_iff' _ _ _).mp
        rw [cast_emod (by omega), Nat.cast_add, Nat.cast_sub d2.le, ZMod.natCast_self, d3, hE k hk]
        simp only [List.getD, s1, Option.getD_some]
        ring
      · intro l hl
        rw [getD_set (by omega)]
        split_ifs with g1 g2 g2
        · rw [g1]
        · omega
        · rw [hb2 l hl, if_pos (by omega)]
        · rw [hb2 l hl, if_neg (by omega)])
  have hbe : b = (List.range params.ell).map fun l => (E l % (params.q : Int)).toNat := by
    apply List.ext_getElem (by simp [hb1])
    intro l g1 g2
    have := hb2 l (by omega)
    rw [if_pos (by omega), List.getD_eq_getElem _ _ g1] at this
    rw [this, List.getElem_map, List.getElem_range]
  rw [h1, hbe]

theorem decrypt_ok (hn : Modulus.new params.q = .ok q) (pr : Profile) {sk : PvwSk} (hsk : ∀ l, l < params.ell → ∃ s, sk[l]? = some s ∧ Vec params.q params.n s)
    {ct : PvwCiphertext} (ha : Vec params.q params.n ct.a) (hb : Vec params.q params.ell ct.b) {E : Nat → Int}
    (hE : ∀ l, l < params.ell → (ct.b.getD l 0 : ZMod params.q) =
      ∑ i ∈ Finset.range params.n, (((sk.getD l []).getD i 0 : Nat) : ZMod params.q) * ((ct.a.getD i 0 : Nat) : ZMod params.q) + (E l : ZMod params.q)) :
    decrypt pr sk params ct = .ok ((List.range params.ell).map fun l => ((E l % (params.q : Int)).toNat + params.q / 4) / (params.q / 2) % 2) := by
  obtain ⟨h2, h62, hqp, hq⟩ := Modulus.new_inv hn
  have hE' : ∀ l, (E l % (params.q : Int)).toNat < params.q := fun l => by
    have := Int.emod_lt_of_pos (E l) (show (0 : Int) < params.q by omega)
    omega
  unfold decrypt
  rw [hn, res_ok_bind, decrypt_phases hn pr hsk ha hb hE, res_ok_bind, mapR_ok (g := fun v => (v + params.q / 4) / (params.q / 2) % 2), List.map_map]
  · rfl
  · intro v hv
    obtain ⟨l, -, rfl⟩ := List.mem_map.mp hv
    have := hE' l
    unfold round
    rw [addW_ok (by omega), res_ok_bind, divR_ok (by omega)]; rfl

end OnionPIR.Pvw
