import Verif.Omit.Union
import Verif.Merge.Run
/-! The cases of one loop iteration: the executed call is that of the operands stored at the coordinate,
if they are in the iteration space. -/
namespace Verif.Omit
open Verif.Algebra (Alg dispatch applier Normal)
open Verif.Merge (It Attr Ctx Point mkPoint compressedAttr latIters latLocs intersectLattices
  unionLattices getLoopLattice subLattice exhausted exact St coordOf unexhausted resolve firstCase
  advance loadsOk dedup SortSpec mem_dedup firstCase_spec)

/-! ### points -/

theorem mem_rangers_lev {p : Point} {k : Nat} : It.lev k ∈ p.rangers K0 ↔ has p k = true := by
  rw [has_iff]
  unfold Point.rangers
  split
  · rw [List.mem_filter]
    exact ⟨fun h => h.1, fun hk => ⟨hk, rfl⟩⟩
  · exact Iff.rfl

theorem mem_rangers_dim {p : Point} : It.dim ∈ p.rangers K0 ↔ It.dim ∈ p.iters ∧ ∀ k, has p k = false := by
  unfold Point.rangers
  split
  · rename_i hany
    rw [List.mem_filter]
    constructor
    · rintro ⟨_, hf⟩; simp [It.isFull] at hf
    · rintro ⟨_, hn⟩
      rw [List.any_eq_true] at hany
      obtain ⟨x, hx, hf⟩ := hany
      cases x with
      | dim => simp [It.isFull] at hf
      | lev k => rw [← has_iff, hn k] at hx; cases hx
  · rename_i hany
    constructor
    · intro hd
      refine ⟨hd, ?_⟩
      intro k
      cases hk : has p k with
      | false => rfl
      | true => exact absurd (List.any_eq_true.2 ⟨_, has_iff.1 hk, rfl⟩) hany
    · exact fun h => h.1

theorem mergers_dim {p : Point} (hp : Plain p) (hd : It.dim ∈ p.iters) : p.mergers K0 = [.dim] := by
  unfold Point.mergers
  rw [if_pos (List.any_eq_true.2 ⟨.dim, hd, rfl⟩)]
  have : p.iters.filter (fun x => x.isFull K0) = p.iters.filter (fun x => x == .dim) := by
    apply List.filter_congr
    intro x _
    rw [Bool.eq_iff_iff, isFull_K0]; simp
  rw [this, List.filter_beq]
  have hc : p.iters.count .dim = 1 := hp.nodup.count.trans (if_pos hd)
  rw [hc]; rfl

theorem mergers_nodim {p : Point} (hd : It.dim ∉ p.iters) : p.mergers K0 = p.iters := by
  unfold Point.mergers
  rw [if_neg]
  · have : p.iters.filter (fun x => !x.isFull K0 && x.isDim) = [] := by
      rw [List.filter_eq_nil_iff]
      intro x hx
      have : x.isDim = false := by
        cases x with
        | dim => exact absurd hx hd
        | lev k => rfl
      simp [this]
    simp [this]
  · intro ha
    rw [List.any_eq_true] at ha
    obtain ⟨x, hx, hf⟩ := ha
    rw [isFull_K0.1 hf] at hx
    exact hd hx

/-! ### sublattices -/

section sub
variable {a : Alg} {L : List Point} (h : LatOK a L)
include h

theorem LatOK.uniq {p q : Point} (hp : p ∈ L) (hq : q ∈ L) (hs : same p q) : p = q := by
  have h1 := h.distinct
  clear h
  induction L with
  | nil => cases hp
  | cons r rs ih =>
    rw [List.pairwise_cons] at h1
    rcases List.mem_cons.1 hp with rfl | hp'
    · rcases List.mem_cons.1 hq with rfl | hq'
      · rfl
      · exact absurd hs (h1.1 q hq')
    · rcases List.mem_cons.1 hq with rfl | hq'
      · exact absurd (fun k => (hs k).symm) (h1.1 p hp')
      · exact ih hp' hq' h1.2

theorem LatOK.iters_iff {p q : Point} (hp : p ∈ L) (hq : q ∈ L) :
    (∀ x ∈ q.iters, x ∈ p.iters) ↔ ∀ k, has q k = true → has p k = true := by
  constructor
  · intro hx k hk; exact has_iff.2 (hx _ (has_iff.1 hk))
  · intro hk x hx
    cases x with
    | dim => exact (h.dim p hp).2 ((h.dim q hq).1 hx)
    | lev k => exact has_iff.1 (hk k (has_iff.2 hx))

theorem LatOK.mem_sub {p q : Point} (hp : p ∈ L) :
    q ∈ subLattice L p ↔ q ∈ L ∧ ∀ k, has q k = true → has p k = true := by
  unfold subLattice
  rw [List.mem_filter]
  constructor
  · rintro ⟨hq, ha⟩
    exact ⟨hq, (h.iters_iff hp hq).1 (fun x hx => by simpa using List.all_eq_true.1 ha x hx)⟩
  · rintro ⟨hq, hk⟩
    exact ⟨hq, List.all_eq_true.2 (fun x hx => by simpa using (h.iters_iff hp hq).2 hk x hx)⟩

theorem LatOK.size_le {p q : Point} (hp : p ∈ L) (hq : q ∈ L) (hk : ∀ k, has q k = true → has p k = true) :
    q.size ≤ p.size :=
  Verif.Omit.size_le (h.plain q hq) (h.plain p hp) hk (fun hd => (h.dim p hp).2 ((h.dim q hq).1 hd))

theorem LatOK.eq_of_size {p q : Point} (hp : p ∈ L) (hq : q ∈ L) (hk : ∀ k, has p k = true → has q k = true)
    (hs : q.size ≤ p.size) : p = q :=
  h.uniq hp hq (same_of_size (h.plain p hp) (h.plain q hq) hk
    (fun hd => (h.dim q hq).2 ((h.dim p hp).1 hd)) hs)

/-- The first matching point is the largest, when the matching points are below one that matches. -/
theorem LatOK.find {M : List Point} (hM : M.Sublist L) {m : Point → Bool} {s : Point} (hs : s ∈ M)
    (hm : m s = true) (hle : ∀ q ∈ M, m q = true → ∀ k, has q k = true → has s k = true) :
    M.find? m = some s := by
  cases hf : M.find? m with
  | none => rw [List.find?_eq_none] at hf; exact absurd hm (hf s hs)
  | some q =>
    have hq := List.mem_of_find?_eq_some hf
    have hqm := List.find?_some hf
    rw [List.find?_eq_some_iff_append] at hf
    obtain ⟨_, as, bs, happ, hnot⟩ := hf
    have hs' := hs
    rw [happ, List.mem_append] at hs'
    rcases hs' with hs' | hs'
    · have := hnot s hs'; rw [hm] at this; cases this
    · rcases List.mem_cons.1 hs' with rfl | hs'
      · rfl
      · have hsorted := h.sorted.sublist hM
        rw [happ] at hsorted
        have := (List.pairwise_cons.1 (List.pairwise_append.1 hsorted).2.1).1 s hs'
        rw [h.eq_of_size (hM.subset hq) (hM.subset hs) (hle q hq hqm) this]

/-- The first point of a sublattice is the point it was made for. -/
theorem LatOK.sub_front {p : Point} (hp : p ∈ L) : ∃ ps, subLattice L p = p :: ps := by
  have hm : p ∈ subLattice L p := (h.mem_sub hp).2 ⟨hp, fun _ h => h⟩
  have hsorted : (subLattice L p).Pairwise (fun p q => p.size ≥ q.size) := h.sorted.sublist List.filter_sublist
  cases hs : subLattice L p with
  | nil => rw [hs] at hm; cases hm
  | cons q qs =>
    have hq : q ∈ subLattice L p := by rw [hs]; exact List.mem_cons_self
    obtain ⟨hqL, hqk⟩ := (h.mem_sub hp).1 hq
    rw [hs] at hm hsorted
    rcases List.mem_cons.1 hm with rfl | hm
    · exact ⟨qs, rfl⟩
    · have := (List.pairwise_cons.1 hsorted).1 p hm
      exact ⟨qs, by rw [h.eq_of_size hqL hp hqk this]⟩

theorem LatOK.sub_iters {p : Point} (hp : p ∈ L) : latIters (subLattice L p) = p.iters := by
  obtain ⟨ps, hs⟩ := h.sub_front hp; rw [hs]; rfl

theorem LatOK.sub_locs {p : Point} (hp : p ∈ L) : latLocs (subLattice L p) = [] := by
  obtain ⟨ps, hs⟩ := h.sub_front hp; rw [hs]; exact (h.plain p hp).locs

theorem LatOK.lat_iters : ∃ p ∈ L, latIters L = p.iters ∧ latLocs L = [] ∧ ∀ k, has p k = true ↔ k ∈ regions a := by
  obtain ⟨p, ps, hL, hk⟩ := h.head (fun _ => Iff.rfl) h.sorted
  have hp : p ∈ L := by rw [hL]; exact List.mem_cons_self
  refine ⟨p, hp, by rw [hL]; rfl, ?_, hk⟩
  rw [hL]; exact (h.plain p hp).locs

theorem LatOK.anyLeaf_sub {p : Point} (hp : p ∈ L) : anyLeaf (subLattice L p) = true ↔ ∃ k, has p k = true := by
  unfold anyLeaf
  rw [h.sub_iters hp, h.sub_locs hp, List.append_nil, List.any_eq_true]
  constructor
  · rintro ⟨x, hx, hd⟩
    cases x with
    | dim => simp [It.isDim] at hd
    | lev k => exact ⟨k, has_iff.2 hx⟩
  · rintro ⟨k, hk⟩; exact ⟨_, has_iff.1 hk, rfl⟩

theorem region_any {p : Point} (hp : Plain p) (k : Nat) : p.region.any (fun x => x == .lev k) = has p k := by
  rw [Bool.eq_iff_iff, List.any_eq_true]
  constructor
  · rintro ⟨x, hx, he⟩
    rw [beq_iff_eq] at he; subst he
    obtain ⟨j, hj, hjp⟩ := hp.region.1 hx
    cases hj; exact hjp
  · intro hk; exact ⟨_, hp.region.2 ⟨k, rfl, hk⟩, by simp⟩

theorem LatOK.exhausted_top {p : Point} (hp : p ∈ L) (k : Nat) :
    exhausted L p k = (decide (k ∈ regions a) && !has p k) := by
  obtain ⟨r, hr, hi, hl, hk⟩ := h.lat_iters
  unfold exhausted
  rw [region_any h (h.plain p hp), hi, hl, List.append_nil]
  congr 1
  rw [Bool.eq_iff_iff, List.any_eq_true, decide_eq_true_eq, ← hk, has_iff]
  simp

theorem LatOK.exhausted_sub {p q : Point} (hp : p ∈ L) (hq : q ∈ L) (k : Nat) :
    exhausted (subLattice L p) q k = (has p k && !has q k) := by
  unfold exhausted
  rw [region_any h (h.plain q hq), h.sub_iters hp, h.sub_locs hp, List.append_nil]
  congr 1
  rw [Bool.eq_iff_iff, List.any_eq_true, has_iff]
  simp

/-- The operands that a case requires to be absent. -/
theorem LatOK.mem_toOmit {p q : Point} (hp : p ∈ L) (hq : q ∈ subLattice L p) (ho : q.isOm = false) {k : Nat} :
    It.lev k ∈ toOmit (subLattice L p) q ↔
      ∃ r ∈ subLattice L p, r.isOm = true ∧ r.region.length > q.region.length ∧ has r k = true ∧ has q k = false := by
  have hqL := ((h.mem_sub hp).1 hq).1
  unfold toOmit
  rw [mem_dedup, ho]
  simp only [Bool.false_eq_true, if_false, List.nil_append, List.mem_flatMap, List.mem_filter, Bool.and_eq_true,
    decide_eq_true_eq, Bool.not_eq_true', decide_eq_false_iff_not]
  constructor
  · rintro ⟨r, ⟨hr, hlt, hom⟩, hkr, hkq⟩
    have hrL := ((h.mem_sub hp).1 hr).1
    obtain ⟨j, hj, hjr⟩ := (h.plain r hrL).region.1 hkr
    cases hj
    refine ⟨r, hr, hom, hlt, hjr, ?_⟩
    cases hk : has q k with
    | false => rfl
    | true => exact absurd ((h.plain q hqL).region.2 ⟨k, rfl, hk⟩) hkq
  · rintro ⟨r, hr, hom, hlt, hkr, hkq⟩
    have hrL := ((h.mem_sub hp).1 hr).1
    refine ⟨r, ⟨hr, hlt, hom⟩, (h.plain r hrL).region.2 ⟨k, rfl, hkr⟩, ?_⟩
    intro hc
    obtain ⟨j, hj, hjq⟩ := (h.plain q hqL).region.1 hc
    cases hj; rw [hkq] at hjq; cases hjq

theorem region_lt {p q : Point} (hp : Plain p) (hq : Plain q) (hk : ∀ k, has q k = true → has p k = true)
    {j : Nat} (hj : has p j = true) (hj' : has q j = false) : q.region.length < p.region.length := by
  have hn : ∀ {r : Point}, Plain r → r.region.Nodup := fun {r} hr => by
    unfold Point.region; rw [hr.locs, List.append_nil]; exact hr.nodup.filter _
  rcases Nat.lt_or_ge q.region.length p.region.length with h' | h'
  · exact h'
  · exfalso
    have hsub : q.region ⊆ p.region := fun x hx => by
      obtain ⟨k, rfl, hkq⟩ := hq.region.1 hx
      exact hp.region.2 ⟨k, rfl, hk k hkq⟩
    have := Merge.subset_of_length_le (hn hq) hsub h' (hp.region.2 ⟨j, rfl, hj⟩)
    obtain ⟨k, hk', hkq⟩ := hq.region.1 this
    cases hk'; rw [hj'] at hkq; cases hkq

/-- The conditions of a case. -/
theorem LatOK.conds {p q : Point} (hp : p ∈ L) (hq : q ∈ subLattice L p) (ho : q.isOm = false)
    (x : Nat × Bool) : x ∈ caseConds (subLattice L p) q ↔
      (x.2 = true ∧ has q x.1 = true) ∨
      (x.2 = false ∧ has q x.1 = false ∧ ∃ r ∈ subLattice L p, r.isOm = true ∧
        r.region.length > q.region.length ∧ has r x.1 = true) := by
  obtain ⟨hqL, hqk⟩ := (h.mem_sub hp).1 hq
  unfold caseConds
  rw [h.sub_iters hp, h.sub_locs hp, List.append_nil, (h.plain q hqL).locs, List.append_nil]
  simp only [List.mem_append, List.mem_filterMap, List.mem_filter, List.contains_iff_mem]
  constructor
  · rintro (⟨y, ⟨hy, hin⟩, he⟩ | ⟨y, ⟨hy, hin⟩, he⟩)
    · cases y with
      | dim => cases he
      | lev k => cases he; exact Or.inl ⟨rfl, mem_rangers_lev.1 hy⟩
    · cases y with
      | dim => cases he
      | lev k =>
        cases he
        obtain ⟨r, hr, h1, h2, h3, h4⟩ := (h.mem_toOmit hp hq ho).1 hy
        exact Or.inr ⟨rfl, h4, r, hr, h1, h2, h3⟩
  · obtain ⟨k, b⟩ := x
    rintro (⟨hb, hk⟩ | ⟨hb, hk, r, hr, h1, h2, h3⟩)
    · simp only at hb hk; subst hb
      exact Or.inl ⟨.lev k, ⟨mem_rangers_lev.2 hk, has_iff.1 (hqk k hk)⟩, rfl⟩
    · simp only at hb hk h3; subst hb
      exact Or.inr ⟨.lev k, ⟨(h.mem_toOmit hp hq ho).2 ⟨r, hr, h1, h2, h3, hk⟩,
        has_iff.1 (((h.mem_sub hp).1 hr).2 k h3)⟩, rfl⟩

end sub

/-! ### the call -/

theorem zeroCall_id {z : Nat → Bool} {c : Call} (hz : ∀ k, some k ∈ c.args → z k = false) : zeroCall z c = c := by
  have : c.args.map (zeroArg z) = c.args := by
    conv => rhs; rw [← List.map_id c.args]
    apply List.map_congr_left
    intro x hx
    cases x with
    | none => rfl
    | some k => simp [zeroArg, hz k hx]
  unfold zeroCall
  dsimp only
  rw [if_pos this]

section low
variable {a : Alg} {L : List Point} (h : LatOK a L)
include h

/-- A point that merges one iterator is not an omitter. -/
theorem LatOK.one_producer {p : Point} (hp : p ∈ L)
    (hsup : ∀ k ∈ regions a, reach false (fun j => j == k) a = true →
      holds (fun j => j == k) a = true ∨ holds (fun _ => false) a = true)
    (hlen : p.iters.length = 1) : p.isOm = false := by
  rw [h.flag p hp]
  cases hr : reach false (fun _ => false) a with
  | true =>
    have hd := (h.dim p hp).2 hr
    have hpk : ∀ k, has p k = false := by
      intro k
      cases hk : has p k with
      | false => rfl
      | true =>
        match hpi : p.iters, hlen with
        | [x], _ =>
          rw [has_iff, hpi] at hk
          rw [hpi] at hd
          simp at hk hd
          rw [← hd] at hk; cases hk
    rw [holds_congr a (T := fun _ => false) (fun k _ => hpk k)]
    rw [reach_none] at hr; simp at hr; rw [hr]; rfl
  | false =>
    match hpi : p.iters, hlen with
    | [.dim], _ =>
      have := (h.dim p hp).1 (by rw [hpi]; simp)
      rw [hr] at this; cases this
    | [.lev j], _ =>
      have hpk : ∀ k, has p k = (k == j) := by
        intro k
        rw [Bool.eq_iff_iff, has_iff, hpi]; simp
      have hrj : reach false (fun k => k == j) a = true := by
        rw [← reach_congr a _ (fun k _ => hpk k)]; exact h.pts p hp
      rw [holds_congr a (fun k _ => hpk k)]
      rcases hsup j (h.sub p hp j (by rw [hpk]; simp)) hrj with h' | h'
      · rw [h']; rfl
      · have := reach_of_holds a false (S := fun _ => false) (by rw [h']; rfl)
        rw [hr] at this; cases this

theorem LatOK.lowerable {p : Point} (hp : p ∈ L)
    (hsup : ∀ k ∈ regions a, reach false (fun j => j == k) a = true →
      holds (fun j => j == k) a = true ∨ holds (fun _ => false) a = true) :
    lowerable (subLattice L p) = true := by
  obtain ⟨ps, hps⟩ := h.sub_front hp
  unfold Omit.lowerable
  rw [getLoopLattice_eq h (M := subLattice L p) List.filter_sublist, h.sub_iters hp, hps]
  simp only [frontOm]
  by_cases hlen : p.iters.length = 1
  · rw [h.one_producer hp hsup hlen]; simp
  · simp [hlen]

end low

theorem takeWhile_all {α : Type} {f : α → Bool} : ∀ {l : List α}, (∀ x ∈ l, f x = true) → l.takeWhile f = l
  | [], _ => rfl
  | x :: l, h => by
    rw [List.takeWhile_cons_of_pos (h x List.mem_cons_self),
      takeWhile_all (fun y hy => h y (List.mem_cons_of_mem _ hy))]

/-! ### one iteration -/

section iter
variable {V : Type} [DecidableEq V] {a : Alg} {L : List Point} (h : LatOK a L) {X : Operands V} {st : St} {c : Nat}
include h

/-- The cases of one loop iteration, for the loop of point `p`. -/
theorem mergeCases_spec {p : Point} (hp : p ∈ L) (call : Call)
    (hpres : ∀ k, has p k = true → (coordOf (input X) st (.lev k) = some c ↔ c ∈ X.crd k))
    (hsub : ∀ k ∈ regions a, c ∈ X.crd k → has p k = true)
    (hdim : reach false (fun _ => false) a = true → st.i = c)
    (hsome : reach false (fun _ => false) a = false → ∃ k, has p k = true ∧ c ∈ X.crd k)
    (hnz : (∃ q ∈ L, q.isOm = true) → ∀ k, has p k = true → c ∈ X.crd k → nonzero X st.pos k = true)
    (hsup : ∀ k ∈ regions a, reach false (fun j => j == k) a = true →
      holds (fun j => j == k) a = true ∨ holds (fun _ => false) a = true) :
    (holds (stored X c) a = false → mergeCases X st c (subLattice L p) call = []) ∧
    (holds (stored X c) a = true → ∃ s ∈ L, (∀ k, has s k = restr a (stored X c) k) ∧
      (∀ k, has s k = true → has p k = true) ∧
      mergeCases X st c (subLattice L p) call = [zeroCall (exhausted (subLattice L p) s) call]) := by
  have hSp : ∀ k, restr a (stored X c) k = true → has p k = true := by
    intro k hk
    simp only [restr, stored, Bool.and_eq_true, decide_eq_true_eq] at hk
    exact hsub k hk.2 hk.1
  have hS : ∀ k, has p k = true → (restr a (stored X c) k = true ↔ c ∈ X.crd k) := by
    intro k hk
    simp only [restr, stored, Bool.and_eq_true, decide_eq_true_eq]
    exact ⟨fun h => h.1, fun hc => ⟨hc, h.sub p hp k hk⟩⟩
  -- the point of the stored operands
  have hex : reach false (stored X c) a = true → ∃ s ∈ subLattice L p, ∀ k, has s k = restr a (stored X c) k := by
    intro hr
    obtain ⟨s, hs, hsk⟩ := h.ex (restr a (stored X c)) (fun k hk => restr_sub hk) (by rw [restr_reach]; exact hr)
    exact ⟨s, (h.mem_sub hp).2 ⟨hs, fun k hk => hSp k (by rw [← hsk]; exact hk)⟩, hsk⟩
  have hflag : ∀ s ∈ L, (∀ k, has s k = restr a (stored X c) k) → s.isOm = !holds (stored X c) a := by
    intro s hs hsk
    rw [h.flag s hs, holds_congr a (fun k _ => hsk k), restr_holds]
  have hreach : ∀ q ∈ L, (∀ k, has q k = true → restr a (stored X c) k = true) → reach false (stored X c) a = true := by
    intro q hq hqk
    rw [← restr_reach]
    exact reach_mono a false (fun k _ => hqk k) (h.pts q hq)
  have hid := getLoopLattice_eq h (M := subLattice L p) List.filter_sublist
  obtain ⟨ps, hps⟩ := h.sub_front hp
  have hcallid : zeroCall (exhausted (subLattice L p) p) call = call :=
    zeroCall_id (fun k _ => by rw [h.exhausted_sub hp hp]; cases has p k <;> rfl)
  -- a point that merges one iterator
  have hone : p.iters.length = 1 → subLattice L p = [p] ∧ p.isOm = false ∧
      ∀ k, has p k = restr a (stored X c) k := by
    intro hlen
    cases hr : reach false (fun _ => false) a with
    | true =>
      have hd := (h.dim p hp).2 hr
      have hpk : ∀ k, has p k = false := by
        intro k
        cases hk : has p k with
        | false => rfl
        | true =>
          match hpi : p.iters, hlen with
          | [x], _ =>
            rw [has_iff, hpi] at hk
            rw [hpi] at hd
            simp at hk hd
            rw [← hd] at hk; cases hk
      refine ⟨?_, ?_, ?_⟩
      · rw [hps]
        cases ps with
        | nil => rfl
        | cons q qs =>
          exfalso
          have hq : q ∈ subLattice L p := by rw [hps]; simp
          obtain ⟨hqL, hqk⟩ := (h.mem_sub hp).1 hq
          have hpq : p = q := h.uniq hp hqL (fun k => by
            rw [hpk]; cases hk : has q k with
            | false => rfl
            | true => have := hqk k hk; rw [hpk] at this; cases this)
          have hd' : (subLattice L p).Pairwise (fun p q => ¬ same p q) := h.distinct.sublist List.filter_sublist
          rw [hps, List.pairwise_cons] at hd'
          exact hd'.1 q List.mem_cons_self (by rw [hpq]; exact fun _ => rfl)
      · rw [h.flag p hp, holds_congr a (T := fun _ => false) (fun k _ => hpk k)]
        rw [reach_none] at hr; simp at hr; rw [hr]; rfl
      · intro k
        rw [hpk]
        cases hk : restr a (stored X c) k with
        | false => rfl
        | true => have := hSp k hk; rw [hpk] at this; cases this
    | false =>
      obtain ⟨j, hj, hjc⟩ := hsome hr
      have hpi : p.iters = [.lev j] := by
        match hpi : p.iters, hlen with
        | [x], _ => rw [has_iff, hpi] at hj; simp at hj; rw [hj]
      have hpk : ∀ k, has p k = (k == j) := by
        intro k
        rw [Bool.eq_iff_iff, has_iff, hpi]; simp
      have hjr := h.sub p hp j hj
      have hrj : reach false (fun k => k == j) a = true := by
        rw [← reach_congr a _ (fun k _ => hpk k)]; exact h.pts p hp
      have hhj : holds (fun k => k == j) a = true := by
        rcases hsup j hjr hrj with h' | h'
        · exact h'
        · have := reach_of_holds a false (S := fun _ => false) (by rw [h']; rfl)
          rw [hr] at this; cases this
      refine ⟨?_, ?_, ?_⟩
      · rw [hps]
        cases ps with
        | nil => rfl
        | cons q qs =>
          exfalso
          have hq : q ∈ subLattice L p := by rw [hps]; simp
          obtain ⟨hqL, hqk⟩ := (h.mem_sub hp).1 hq
          have hqj : has q j = true := by
            cases hqj : has q j with
            | true => rfl
            | false =>
              have := h.pts q hqL
              rw [reach_congr a (T := fun _ => false) _ (fun k _ => by
                cases hk : has q k with
                | false => rfl
                | true =>
                  have := hqk k hk
                  rw [hpk, beq_iff_eq] at this
                  subst this; rw [hqj] at hk; cases hk), hr] at this
              cases this
          have hd' : (subLattice L p).Pairwise (fun p q => ¬ same p q) := h.distinct.sublist List.filter_sublist
          rw [hps, List.pairwise_cons] at hd'
          refine hd'.1 q List.mem_cons_self ?_
          intro k
          rw [Bool.eq_iff_iff]
          refine ⟨?_, hqk k⟩
          intro hk
          rw [hpk, beq_iff_eq] at hk; rw [hk]; exact hqj
      · rw [h.flag p hp, holds_congr a (fun k _ => hpk k), hhj]; rfl
      · intro k
        cases hk : has p k with
        | true =>
          rw [hpk, beq_iff_eq] at hk; subst hk
          exact ((hS k hj).2 hjc).symm
        | false =>
          cases hk' : restr a (stored X c) k with
          | false => rfl
          | true => rw [hSp k hk'] at hk; cases hk
  have honeH : p.iters.length = 1 → holds (stored X c) a = true := by
    intro hlen
    obtain ⟨_, ho, hk⟩ := hone hlen
    have := hflag p hp hk
    rw [ho] at this; simpa using this.symm
  · -- reduce to the result of the case search
    have hfin : (∃ s ∈ subLattice L p, (∀ k, has s k = restr a (stored X c) k) ∧
        holds (stored X c) a = true ∧
        mergeCases X st c (subLattice L p) call = [zeroCall (exhausted (subLattice L p) s) call]) ∨
        (holds (stored X c) a = false ∧ mergeCases X st c (subLattice L p) call = []) →
        (holds (stored X c) a = false → mergeCases X st c (subLattice L p) call = []) ∧
        (holds (stored X c) a = true → ∃ s ∈ L, (∀ k, has s k = restr a (stored X c) k) ∧
          (∀ k, has s k = true → has p k = true) ∧
          mergeCases X st c (subLattice L p) call = [zeroCall (exhausted (subLattice L p) s) call]) := by
      rintro (⟨s, hs, hk, hh, hm⟩ | ⟨hh, hm⟩)
      · refine ⟨fun hc => (by rw [hh] at hc; cases hc), fun _ => ?_⟩
        obtain ⟨hsL, hsk⟩ := (h.mem_sub hp).1 hs
        exact ⟨s, hsL, hk, hsk, hm⟩
      · exact ⟨fun _ => hm, fun hc => by rw [hh] at hc; cases hc⟩
    apply hfin
    clear hfin
    have hpsub : p ∈ subLattice L p := (h.mem_sub hp).2 ⟨hp, fun _ h => h⟩
    unfold mergeCases
    rw [hid]
    split
    · -- explicit zero checks
      rename_i hcond
      rw [Bool.and_eq_true] at hcond
      have hom : ∃ r ∈ subLattice L p, r.isOm = true := by
        have := hcond.2
        unfold needChecks at this
        rw [Bool.or_false, List.any_eq_true] at this
        exact this
      split
      · rename_i hl
        rw [h.sub_iters hp] at hl
        exact Or.inl ⟨p, hpsub, (hone hl.2).2.2, honeH hl.2, by rw [hcallid]⟩
      · obtain ⟨r, hr, hro⟩ := hom
        have hrL := ((h.mem_sub hp).1 hr).1
        have hnz := hnz ⟨r, hrL, hro⟩
        -- no case is unconditional
        have hne : ∀ q ∈ subLattice L p, q.isOm = false → caseConds (subLattice L p) q ≠ [] := by
          intro q hq ho hc
          have hqL := ((h.mem_sub hp).1 hq).1
          have hno : ∀ x, x ∉ caseConds (subLattice L p) q := by rw [hc]; simp
          have hqk : ∀ k, has q k = false := by
            intro k
            cases hk : has q k with
            | false => rfl
            | true => exact absurd ((h.conds hp hq ho (k, true)).2 (Or.inl ⟨rfl, hk⟩)) (hno _)
          -- the omitter merges something
          have hrk : ∃ j, has r j = true := by
            apply Classical.byContradiction
            intro hn
            have : r = q := h.uniq hrL hqL (fun k => by
              rw [hqk]; cases hk : has r k with
              | false => rfl
              | true => exact absurd ⟨k, hk⟩ hn)
            rw [this, ho] at hro; cases hro
          obtain ⟨j, hj⟩ := hrk
          refine absurd ((h.conds hp hq ho (j, false)).2 (Or.inr ⟨rfl, hqk j, r, hr, hro, ?_, hj⟩)) (hno _)
          exact region_lt h (h.plain r hrL) (h.plain q hqL) (fun k hk => by rw [hqk] at hk; cases hk) hj (hqk j)
        have hexact : exact K0 (subLattice L p) = false := by
          unfold exact
          rw [if_pos (List.any_eq_true.2 ⟨r, hr, hro⟩)]
        unfold casesFromMap
        dsimp only
        have hany : ((subLattice L p).filter (fun p => !p.isOm)).any
            (fun q => (caseConds (subLattice L p) q).isEmpty) = false := by
          rw [List.any_eq_false]
          intro q hq
          rw [List.mem_filter] at hq
          rw [List.isEmpty_iff]
          exact hne q hq.1 (by simpa using hq.2)
        have htake : ((subLattice L p).filter (fun p => !p.isOm)).takeWhile
            (fun q => !(caseConds (subLattice L p) q).isEmpty) = (subLattice L p).filter (fun p => !p.isOm) := by
          apply takeWhile_all
          intro q hq
          rw [List.mem_filter] at hq
          rw [Bool.not_eq_true', List.isEmpty_eq_false_iff]
          exact hne q hq.1 (by simpa using hq.2)
        rw [hany, htake, hexact, Bool.false_and, firstCase_spec _ _ _ (fun hc => by cases hc)]
        rw [if_neg (by simp), List.nil_append]
        have hMs : ((subLattice L p).filter (fun p => !p.isOm)).Sublist L :=
          List.filter_sublist.trans List.filter_sublist
        have hMm : ∀ q, q ∈ (subLattice L p).filter (fun p => !p.isOm) ↔ q ∈ subLattice L p ∧ q.isOm = false := by
          intro q; rw [List.mem_filter]; simp
        generalize (subLattice L p).filter (fun p => !p.isOm) = M at hMs hMm
        -- which operands count as nonzero
        have hz : ∀ k, has p k = true →
            (coordOf (input X) st (.lev k) == some c && nonzero X st.pos k) = restr a (stored X c) k := by
          intro k hk
          rw [Bool.eq_iff_iff, hS k hk, Bool.and_eq_true, beq_iff_eq, hpres k hk]
          exact ⟨fun h => h.1, fun hc => ⟨hc, hnz k hk hc⟩⟩
        have hmatch : ∀ q ∈ M, condsHold
            (fun k => coordOf (input X) st (.lev k) == some c && nonzero X st.pos k)
            (caseConds (subLattice L p) q) = true ↔
            (∀ k, has q k = true → restr a (stored X c) k = true) ∧
            (∀ k, has q k = false → ∀ r ∈ subLattice L p, r.isOm = true →
              r.region.length > q.region.length → has r k = true → restr a (stored X c) k = false) := by
          intro q hq
          obtain ⟨hq, ho⟩ := (hMm q).1 hq
          obtain ⟨hqL, hqk⟩ := (h.mem_sub hp).1 hq
          unfold condsHold
          rw [List.all_eq_true]
          constructor
          · intro hall
            refine ⟨?_, ?_⟩
            · intro k hk
              have := hall (k, true) ((h.conds hp hq ho _).2 (Or.inl ⟨rfl, hk⟩))
              simp only [beq_iff_eq] at this
              rw [← hz k (hqk k hk)]; exact this
            · intro k hk r' hr' hro' hlt hrk
              have := hall (k, false) ((h.conds hp hq ho _).2 (Or.inr ⟨rfl, hk, r', hr', hro', hlt, hrk⟩))
              simp only [beq_iff_eq] at this
              rw [← hz k (((h.mem_sub hp).1 hr').2 k hrk)]; exact this
          · rintro ⟨h1, h2⟩ ⟨k, b⟩ hx
            rcases (h.conds hp hq ho _).1 hx with ⟨hb, hk⟩ | ⟨hb, hk, r', hr', hro', hlt, hrk⟩
            · simp only at hb hk
              rw [hb]
              simp only [beq_iff_eq]
              rw [hz k (hqk k hk)]; exact h1 k hk
            · simp only at hb hk hrk
              rw [hb]
              simp only [beq_iff_eq]
              rw [hz k (((h.mem_sub hp).1 hr').2 k hrk)]; exact h2 k hk r' hr' hro' hlt hrk
        cases hh : holds (stored X c) a with
        | true =>
          left
          obtain ⟨s, hs, hsk⟩ := hex (reach_of_holds a false (by rw [hh]; rfl))
          have hsL := ((h.mem_sub hp).1 hs).1
          have hso : s.isOm = false := by rw [hflag s hsL hsk, hh]; rfl
          have hsM := (hMm s).2 ⟨hs, hso⟩
          refine ⟨s, hs, hsk, rfl, ?_⟩
          rw [h.find hMs hsM ((hmatch s hsM).2 ⟨fun k hk => by rw [← hsk]; exact hk, fun k hk _ _ _ _ _ => by
            rw [← hsk]; exact hk⟩) (fun q hq hm k hk => by rw [hsk]; exact ((hmatch q hq).1 hm).1 k hk)]
        | false =>
          right
          refine ⟨rfl, ?_⟩
          have : M.find? (fun q => condsHold
            (fun k => coordOf (input X) st (.lev k) == some c && nonzero X st.pos k)
            (caseConds (subLattice L p) q)) = none := by
            rw [List.find?_eq_none]
            intro q hq hm
            obtain ⟨h1, h2⟩ := (hmatch q hq).1 hm
            obtain ⟨hqs, ho⟩ := (hMm q).1 hq
            have hqL := ((h.mem_sub hp).1 hqs).1
            obtain ⟨s, hs, hsk⟩ := hex (hreach q hqL h1)
            have hsL := ((h.mem_sub hp).1 hs).1
            have hso : s.isOm = true := by rw [hflag s hsL hsk, hh]; rfl
            have hdiff : ∃ j, has s j = true ∧ has q j = false := by
              apply Classical.byContradiction
              intro hn
              have : q = s := h.uniq hqL hsL (fun k => by
                rw [Bool.eq_iff_iff]
                refine ⟨fun hk => by rw [hsk]; exact h1 k hk, fun hk => ?_⟩
                cases hqk : has q k with
                | true => rfl
                | false => exact absurd ⟨k, hk, hqk⟩ hn)
              rw [this, hso] at ho; cases ho
            obtain ⟨j, hj, hj'⟩ := hdiff
            have := h2 j hj' s hs hso (region_lt h (h.plain s hsL) (h.plain q hqL)
              (fun k hk => by rw [hsk]; exact h1 k hk) hj hj') hj
            rw [← hsk, hj] at this; cases this
          rw [this]
    · -- structural cases
      rename_i hcond
      dsimp only
      rw [h.sub_iters hp]
      split
      · rename_i hlen
        refine Or.inl ⟨p, hpsub, (hone hlen).2.2, honeH hlen, ?_⟩
        rw [hcallid]
        unfold body
        rw [(hone hlen).1, if_neg (by simp)]
      · rename_i hlen
        -- the point merges an operand, so the sublattice has no omitters
        have hlev : ∃ k, has p k = true := by
          apply Classical.byContradiction
          intro hn
          have hpk : ∀ k, has p k = false := fun k => by
            cases hk : has p k with
            | false => rfl
            | true => exact absurd ⟨k, hk⟩ hn
          have hall : ∀ x ∈ p.iters, x = .dim := fun x hx => by
            cases x with
            | dim => rfl
            | lev k => rw [← has_iff, hpk] at hx; cases hx
          have hr := h.pts p hp
          rw [reach_congr a (T := fun _ => false) _ (fun k _ => hpk k)] at hr
          have hd := (h.dim p hp).2 hr
          have hnd := (h.plain p hp).nodup
          apply hlen
          match hpi : p.iters with
          | [] => rw [hpi] at hd; cases hd
          | [x] => rfl
          | x :: y :: zs =>
            rw [hpi] at hall hnd
            have h1 := hall x (by simp)
            have h2 := hall y (by simp)
            rw [h1, h2] at hnd; simp at hnd
        have hnoom : ∀ q ∈ subLattice L p, q.isOm = false := by
          rw [Bool.and_eq_true, not_and, (h.anyLeaf_sub hp)] at hcond
          have := hcond hlev
          unfold needChecks at this
          rw [Bool.or_false, Bool.not_eq_true, List.any_eq_false] at this
          intro q hq
          have := this q hq
          simpa using this
        have homit : ∀ q ∈ subLattice L p, toOmit (subLattice L p) q = [] := by
          intro q hq
          unfold toOmit
          rw [hnoom q hq]
          have : (subLattice L p).filter (fun r => decide (r.region.length > q.region.length) && r.isOm) = [] := by
            rw [List.filter_eq_nil_iff]
            intro r hr
            rw [hnoom r hr]; simp
          rw [this]; rfl
        have hmatch : ∀ q ∈ subLattice L p, structMatch X st c (subLattice L p) q = true ↔
            ∀ k, has q k = true → restr a (stored X c) k = true := by
          intro q hq
          obtain ⟨hqL, hqk⟩ := (h.mem_sub hp).1 hq
          unfold structMatch
          rw [homit q hq, List.all_nil, Bool.or_true, Bool.and_true, List.all_eq_true]
          constructor
          · intro hall k hk
            have := hall _ (mem_rangers_lev.2 hk)
            rw [beq_iff_eq] at this
            exact (hS k (hqk k hk)).2 ((hpres k (hqk k hk)).1 this)
          · intro hk x hx
            rw [beq_iff_eq]
            cases x with
            | dim =>
              have hd := (mem_rangers_dim.1 hx).1
              simp only [coordOf]
              rw [hdim ((h.dim q hqL).1 hd)]
            | lev k =>
              have hkq := mem_rangers_lev.1 hx
              exact (hpres k (hqk k hkq)).2 ((hS k (hqk k hkq)).1 (hk k hkq))
        have hexm : (exact K0 (subLattice L p) && decide ((subLattice L p).length > 1)) = true →
            ∃ q ∈ subLattice L p, structMatch X st c (subLattice L p) q = true := by
          intro hx
          rw [Bool.and_eq_true] at hx
          have hx := hx.1
          unfold exact at hx
          split at hx
          · cases hx
          · split at hx
            · rename_i hany
              rw [List.any_eq_true] at hany
              obtain ⟨q, hq, hall⟩ := hany
              refine ⟨q, hq, (hmatch q hq).2 ?_⟩
              intro k hk
              rw [List.all_eq_true] at hall
              have := isFull_K0.1 (hall _ (has_iff.1 hk))
              cases this
            · rw [h.sub_iters hp, List.all_eq_true] at hx
              have hone' : ∃ x ∈ p.iters, ∀ k, x = .lev k → c ∈ X.crd k := by
                cases hr : reach false (fun _ => false) a with
                | true => exact ⟨.dim, (h.dim p hp).2 hr, fun k hk => by cases hk⟩
                | false =>
                  obtain ⟨k, hk, hkc⟩ := hsome hr
                  exact ⟨_, has_iff.1 hk, fun j hj => by cases hj; exact hkc⟩
              obtain ⟨x, hxp, hxc⟩ := hone'
              have := hx x hxp
              rw [List.any_eq_true] at this
              obtain ⟨q, hq, hqx⟩ := this
              rw [beq_iff_eq] at hqx
              refine ⟨q, hq, (hmatch q hq).2 ?_⟩
              intro k hk
              have hkp := ((h.mem_sub hp).1 hq).2 k hk
              rw [has_iff, hqx, List.mem_singleton] at hk
              exact (hS k hkp).2 (hxc k hk.symm)
        rw [firstCase_spec _ _ _ hexm]
        cases hh : holds (stored X c) a with
        | true =>
          left
          obtain ⟨s, hs, hsk⟩ := hex (reach_of_holds a false (by rw [hh]; rfl))
          refine ⟨s, hs, hsk, rfl, ?_⟩
          rw [h.find (M := subLattice L p) List.filter_sublist hs ((hmatch s hs).2 (fun k hk => by rw [← hsk]; exact hk))
            (fun q hq hm k hk => by rw [hsk]; exact (hmatch q hq).1 hm k hk)]
        | false =>
          right
          refine ⟨rfl, ?_⟩
          have : (subLattice L p).find? (structMatch X st c (subLattice L p)) = none := by
            rw [List.find?_eq_none]
            intro q hq hm
            have hqL := ((h.mem_sub hp).1 hq).1
            obtain ⟨s, hs, hsk⟩ := hex (hreach q hqL ((hmatch q hq).1 hm))
            have := hnoom s hs
            rw [hflag s ((h.mem_sub hp).1 hs).1 hsk, hh] at this; cases this
          rw [this]

end iter
end Verif.Omit
