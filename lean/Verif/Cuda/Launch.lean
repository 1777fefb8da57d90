import Verif.Cuda.Threads
/- The threads of a launch are the iterations of the loops for blocks, warps and threads. -/
namespace Verif.Cuda

variable {Ev : Type}

theorem gridSize_zero {lo hi step : Int} (hs : 0 < step) (h : hi ≤ lo) :
    (gridSize lo hi step).toNat = 0 := by
  unfold gridSize
  have : (hi - lo + (step - 1)).tdiv step ≤ 0 := by
    by_cases h0 : 0 ≤ hi - lo + (step - 1)
    · rw [Int.tdiv_eq_ediv_of_nonneg h0, Int.ediv_eq_zero_of_lt h0 (by omega)]; exact Int.le_refl _
    · have h1 : hi - lo + (step - 1) = -(-(hi - lo + (step - 1))) := by omega
      have h2 : 0 ≤ (-(hi - lo + (step - 1))).tdiv step := Int.tdiv_nonneg (by omega) (by omega)
      rw [h1, Int.neg_tdiv]
      omega
  omega

theorem gridSize_succ {lo hi step : Int} (hs : 0 < step) (h : lo < hi) :
    (gridSize lo hi step).toNat = (gridSize (lo + step) hi step).toNat + 1 := by
  unfold gridSize
  have e1 : hi - lo + (step - 1) = (hi - (lo + step) + (step - 1)) + 1 * step := by omega
  have h1 : 0 ≤ hi - (lo + step) + (step - 1) := by omega
  have h2 : 0 ≤ hi - lo + (step - 1) := by omega
  rw [Int.tdiv_eq_ediv_of_nonneg h1, Int.tdiv_eq_ediv_of_nonneg h2, e1,
    Int.add_mul_ediv_right _ _ (by omega)]
  have : 0 ≤ (hi - (lo + step) + (step - 1)) / step := Int.ediv_nonneg h1 (by omega)
  omega

theorem upTo_range {step hi : Int} (hs : 0 < step) : ∀ (n : Nat) (v : Int), hi - v ≤ n →
    upTo step hi n v = (List.range (gridSize v hi step).toNat).map fun b : Nat => (b : Int) * step + v := by
  intro n
  induction n with
  | zero =>
    intro v h
    rw [gridSize_zero hs (by omega)]; rfl
  | succ n ih =>
    intro v h
    simp only [upTo]
    split
    · rename_i hv
      rw [gridSize_succ hs hv, List.range_succ_eq_map, ih (v + step) (by omega), List.map_cons, List.map_map]
      refine List.cons_eq_cons.2 ⟨by simp, List.map_congr_left fun b _ => ?_⟩
      show (b : Int) * step + (v + step) = ((b + 1 : Nat) : Int) * step + v
      rw [Int.natCast_add, Int.add_mul]
      simp only [Int.natCast_one, Int.one_mul]
      omega
    · rename_i hv
      rw [gridSize_zero hs (by omega)]; rfl

/-- The values of a loop, numbered. -/
theorem iters_range {lo hi step : Int} (hs : 0 < step) : iters lo hi step =
    (List.range (gridSize lo hi step).toNat).map fun b : Nat => (b : Int) * step + lo := by
  unfold iters
  rw [if_pos hs]
  exact upTo_range hs _ _ (by omega)

/-- Where the step divides the range, rounding down loses nothing. -/
theorem size_exact {p : ParLoop} (hs : 0 < p.step) (h : p.lo ≤ p.hi) (hd : p.step ∣ p.hi - p.lo) :
    p.size = gridSize p.lo p.hi p.step ∧ 0 ≤ p.size := by
  obtain ⟨k, hk⟩ := hd
  have hk0 : 0 ≤ k := by
    refine Int.not_lt.1 fun hneg => ?_
    have : p.step * k < 0 := Int.mul_neg_of_pos_of_neg hs hneg
    omega
  have h1 : p.size = k := by
    unfold ParLoop.size
    rw [hk, Int.tdiv_eq_ediv_of_nonneg (by omega), Int.mul_ediv_cancel_left _ (by omega)]
  have h2 : gridSize p.lo p.hi p.step = k := by
    unfold gridSize
    rw [Int.tdiv_eq_ediv_of_nonneg (by omega), hk, Int.mul_comm, Int.add_comm,
      Int.add_mul_ediv_right _ _ (by omega), Int.ediv_eq_zero_of_lt (by omega) (by omega)]
    omega
  exact ⟨by rw [h1, h2], by rw [h1]; exact hk0⟩

theorem range_mul {β : Type} (m : Nat) (hm : 0 < m) (f : Nat → Nat → List β) : ∀ (k : Nat),
    ((List.range (m * k)).flatMap fun i => f (i / m) (i % m)) =
      (List.range k).flatMap fun a => (List.range m).flatMap fun b => f a b := by
  intro k
  induction k with
  | zero => simp
  | succ k ih =>
    rw [Nat.mul_succ, List.range_add, List.flatMap_append, ih, List.range_succ, List.flatMap_append,
      flatMap_map']
    congr 1
    rw [List.flatMap_cons, List.flatMap_nil, List.append_nil]
    refine flatMap_congr fun b hb => ?_
    have hb : b < m := List.mem_range.1 hb
    rw [Nat.mul_add_div hm, Nat.div_eq_of_lt hb, Nat.mul_add_mod, Nat.mod_eq_of_lt hb]
    rfl

theorem plain_collect {n : Nat} {u : PUnit} : ∀ (b : Stmt Ev) (l : Bool) (D : List Var), Plain n l D b →
    collect u b = [] := by
  intro b
  induction b with
  | skip | cont | brk | ret | emit | set => intro l D _; rfl
  | seq a b iha ihb =>
    intro l D h
    show collect u a ++ collect u b = []
    rw [iha l _ h.1, ihb l _ h.2]; rfl
  | ite c a b iha ihb =>
    intro l D h
    show collect u a ++ collect u b = []
    rw [iha l _ h.2.1, ihb l _ h.2.2]; rfl
  | wloop c b ih => intro l D h; exact ih _ _ h.2.1
  | loop x lo hi step b ih => intro l D h; exact ih _ _ h.2.2.2.1
  | par => intro l D h; exact h.elim
  | red => intro l D h; exact h.elim

theorem reduction_collect {n : Nat} {u : PUnit} {t : ParLoop} {D : List Var} {b : Stmt Ev}
    (h : Reduction n t D b) : collect u b = [] := by
  cases b with
  | red x lo hi step r => exact plain_collect r _ _ h.2.2.1
  | _ => exact h.elim

theorem contents_collect {n : Nat} {t : ParLoop} {w : Option ParLoop} : ∀ (b : Stmt Ev) (inner : Bool)
    (d : Nat) (D : List Var), Contents n t w inner d D b →
    collect .thread b = [t] ∧ collect .warp b = if inner = true then [] else w.toList := by
  intro b
  induction b with
  | skip | cont | brk | ret | emit | set | wloop | red => intro inner d D h; exact h.elim
  | seq a b iha ihb =>
    intro inner d D h
    show collect _ a ++ collect _ b = _ ∧ collect _ a ++ collect _ b = _
    rcases h with ⟨hp, _, _, hc⟩ | ⟨_, hc, _, hr⟩
    · rw [plain_collect a _ _ hp, plain_collect a _ _ hp, (ihb _ _ _ hc).1, (ihb _ _ _ hc).2]
      exact ⟨rfl, rfl⟩
    · rw [reduction_collect hr, reduction_collect hr, (iha _ _ _ hc).1, (iha _ _ _ hc).2]
      exact ⟨rfl, List.append_nil _⟩
  | ite c a b iha ihb =>
    intro inner d D h
    obtain ⟨_, hc, hb⟩ := h
    subst hb
    show collect _ a ++ [] = _ ∧ collect _ a ++ [] = _
    rw [List.append_nil, List.append_nil]
    exact iha _ _ _ hc
  | loop x lo hi step b ih => intro inner d D h; exact ih _ _ _ h.2.2.2.2.2
  | par u x lo hi step b ih =>
    intro inner d D h
    cases u with
    | thread =>
      obtain ⟨hin, hpar, hpl, _, _⟩ := h
      subst hin
      refine ⟨?_, ?_⟩
      · show (if PUnit.thread = PUnit.thread then _ else _) ++ collect _ b = _
        rw [if_pos rfl, plain_collect b _ _ hpl, hpar]; rfl
      · show (if PUnit.thread = PUnit.warp then _ else _) ++ collect _ b = _
        rw [if_neg (by decide), plain_collect b _ _ hpl]; rfl
    | warp =>
      obtain ⟨hin, hw, hc, _⟩ := h
      subst hin
      have := ih _ _ _ hc
      refine ⟨?_, ?_⟩
      · show (if PUnit.warp = PUnit.thread then _ else _) ++ collect _ b = _
        rw [if_neg (by decide), this.1]; rfl
      · show (if PUnit.warp = PUnit.warp then _ else _) ++ collect _ b = _
        rw [if_pos rfl, this.2, hw]; rfl

/-- What a launch is for a kernel that fits. -/
theorem geometry_fits {n : Nat} {k : Kernel Ev} {t : ParLoop} {w : Option ParLoop} {D : List Var} {s : Env}
    (h : k.Fits n t w D s) :
    geometry k s = some ⟨gridSize (k.lo.eval s) (k.hi.eval s) (k.step.eval s), t, w⟩ := by
  obtain ⟨h1, h2⟩ := contents_collect k.body _ _ _ h.contents
  unfold geometry
  cases w with
  | none =>
    have : collect .warp k.body = [] := by rw [h2]; rfl
    rw [h1, this]
  | some q =>
    have : collect .warp k.body = [q] := by rw [h2]; rfl
    rw [h1, this]

/-- The environment of the thread for the given iterations. -/
def iterEnv (t : ParLoop) (w : Option ParLoop) (x : Var) (s : Env) (v : Int) (p : Int × Int) : Env :=
  match w with
  | none => upd (upd s x v) t.x p.2
  | some q => upd (upd (upd s x v) t.x p.2) q.x p.1

/-- The warps and threads of a block. -/
def blockThreads (t : ParLoop) : Option ParLoop → List (Int × Int)
  | none => (iters t.lo t.hi t.step).map fun v => (0, v)
  | some q => (iters q.lo q.hi q.step).flatMap fun wv => (iters t.lo t.hi t.step).map fun v => (wv, v)

theorem block_threads {n : Nat} {k : Kernel Ev} {t : ParLoop} {w : Option ParLoop} {D : List Var} {s : Env}
    (h : k.Fits n t w D s) (b : Nat) :
    let g : Geometry := ⟨gridSize (k.lo.eval s) (k.hi.eval s) (k.step.eval s), t, w⟩
    ((List.range g.blockSize.toNat).flatMap fun i => threadRun n k g s b i) =
      (blockThreads t w).flatMap fun p =>
        (run n (tr true 0 k.body) (iterEnv t w k.x s (b * k.step.eval s + k.lo.eval s) p)).evs := by
  obtain ⟨hts, htl, htd⟩ := h.threads
  obtain ⟨hsz, hnn⟩ := size_exact hts (Int.le_of_lt htl) htd
  have hpos : 0 < t.size := by
    obtain ⟨r, hr, _⟩ := iters_head hts htl
    have := iters_range (lo := t.lo) (hi := t.hi) hts
    rw [hr] at this
    refine Int.not_le.1 fun hle => ?_
    have h0 : (gridSize t.lo t.hi t.step).toNat = 0 := by omega
    rw [h0] at this
    exact nomatch this
  obtain ⟨m, hm⟩ := Int.eq_ofNat_of_zero_le hnn
  have hm0 : 0 < m := by omega
  have hgm : (gridSize t.lo t.hi t.step).toNat = m := by omega
  dsimp only
  cases w with
  | none =>
    have hb : ∀ gr, (⟨gr, t, none⟩ : Geometry).blockSize = (m : Int) := fun _ => hm
    rw [hb]
    show _ = ((iters t.lo t.hi t.step).map fun v => (0, v)).flatMap _
    rw [flatMap_map', iters_range hts, flatMap_map', hgm, Int.toNat_natCast]
    refine flatMap_congr fun i hi => ?_
    have hi : i < m := List.mem_range.1 hi
    unfold threadRun
    rw [hb, if_neg (by omega)]
    unfold threadEnv iterEnv
    dsimp only
    rw [hm, Int.emod_eq_of_lt (by omega) (by omega)]
  | some q =>
    obtain ⟨hqs, hql, hqd⟩ := h.warps q rfl
    obtain ⟨hqz, hqn⟩ := size_exact hqs hql hqd
    obtain ⟨l, hl⟩ := Int.eq_ofNat_of_zero_le hqn
    have hgl : (gridSize q.lo q.hi q.step).toNat = l := by omega
    have hb : ∀ gr, (⟨gr, t, some q⟩ : Geometry).blockSize = ((m * l : Nat) : Int) := fun _ => by
      show t.size * q.size = _
      rw [hm, hl, Int.natCast_mul]
    rw [hb]
    show _ = ((iters q.lo q.hi q.step).flatMap fun wv =>
      (iters t.lo t.hi t.step).map fun v => (wv, v)).flatMap _
    rw [flatMap_flatMap, iters_range hqs, flatMap_map', hgl, Int.toNat_natCast]
    have hfix : ∀ a ∈ List.range l, (((iters t.lo t.hi t.step).map fun v => ((a : Int) * q.step + q.lo, v)).flatMap
        fun p => (run n (tr true 0 k.body) (iterEnv t (some q) k.x s
          (b * k.step.eval s + k.lo.eval s) p)).evs) =
        (List.range m).flatMap (fun i : Nat => (run n (tr true 0 k.body) (iterEnv t (some q) k.x s
          (b * k.step.eval s + k.lo.eval s) ((a : Int) * q.step + q.lo, (i : Int) * t.step + t.lo))).evs) := by
      intro a _
      rw [flatMap_map', iters_range hts, flatMap_map', hgm]
    rw [flatMap_congr hfix]
    rw [← range_mul m hm0 (fun a i => (run n (tr true 0 k.body) (iterEnv t (some q) k.x s
          (b * k.step.eval s + k.lo.eval s) ((a : Int) * q.step + q.lo, (i : Int) * t.step + t.lo))).evs) l]
    refine flatMap_congr fun i hi => ?_
    have hi : i < m * l := List.mem_range.1 hi
    unfold threadRun
    rw [hb, if_neg (by omega)]
    unfold threadEnv iterEnv
    dsimp only
    rw [hm, Int.natCast_ediv, Int.natCast_emod]

theorem launch_fits {n : Nat} {k : Kernel Ev} {t : ParLoop} {w : Option ParLoop} {D : List Var} {s : Env}
    (h : k.Fits n t w D s) : ∃ evs, launch n k s = some evs ∧ (k.asLoop n s).Perm evs := by
  refine ⟨_, by unfold launch; rw [geometry_fits h]; rfl, ?_⟩
  dsimp only
  rw [flatMap_congr (fun b _ => block_threads h b)]
  have hL : Left t w (w = none) (blockThreads t w) := by
    cases w with
    | none => exact ⟨fun _ => ⟨0, rfl⟩, fun h => by simp at h⟩
    | some q => exact ⟨fun h => by simp at h, fun _ => ⟨q, rfl, rfl⟩⟩
  have hit := iterate_perm (β := Unit) (f := run n k.body) (x := k.x)
    (Q := fun s' => ∀ y ∈ D, y ≠ k.x → s' y = s y)
    (g := fun v => (blockThreads t w).flatMap fun p =>
      (run n (tr true 0 k.body) (iterEnv t w k.x s v p)).evs)
    (iters (k.lo.eval s) (k.hi.eval s) (k.step.eval s)) (fun v _ s' hs' => by
      have hsh := contents_shared ⟨h.threads.1, h.threads.2.1⟩ k.body _ 0 (k.x :: D) (blockThreads t w)
        h.contents hL (fun y hy => (h.own y hy).2) (upd s' k.x v) (iterEnv t w k.x s v) (by
          have htv : ∀ y ∈ k.x :: D, y ≠ t.x := fun y hy e => h.threadVar (e ▸ hy)
          refine ⟨fun p _ y hy => ?_, fun p _ => ?_, fun p _ q hq => ?_⟩
          · have h1 : upd s' k.x v y = upd s k.x v y := by
              by_cases e : y = k.x
              · subst e; rw [upd_same, upd_same]
              · rw [upd_other e, upd_other e]
                rcases List.mem_cons.1 hy with h' | h'
                · exact absurd h' e
                · exact hs' y h' e
            rw [h1]
            unfold iterEnv
            cases w with
            | none => exact (upd_other (htv y hy)).symm
            | some q =>
              have : y ≠ q.x := fun e => (h.warpVar q rfl).1 (e ▸ hy)
              dsimp only
              rw [upd_other this, upd_other (htv y hy)]
          · unfold iterEnv
            cases w with
            | none => exact upd_same ..
            | some q =>
              dsimp only
              rw [upd_other (Ne.symm (h.warpVar q rfl).2), upd_same]
          · unfold iterEnv
            rw [hq]
            exact upd_same ..)
      refine ⟨hsh.perm, hsh.ctl, fun y hy hx => ?_⟩
      exact (run_frame k.body _ y (fun hm => (h.own y hm).1 hy)).trans
        ((upd_other hx).trans (hs' y hy hx)))
    s (fun _ _ _ => rfl)
  have : (k.asLoop n s) = (iterate (run n k.body) k.x
      (iters (k.lo.eval s) (k.hi.eval s) (k.step.eval s)) s).evs := rfl
  rw [this]
  refine hit.1.trans ?_
  rw [iters_range h.step, flatMap_map']

end Verif.Cuda
