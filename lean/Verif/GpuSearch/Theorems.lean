import Verif.GpuSearch.Lemmas
/-!
# Threads of a GPU start in the right rows: property C84
-/
namespace Verif.GpuSearch
open Verif.Merge (Lvl)
open Verif.Pack
open Verif.Search (binarySearchBefore chk)
open Verif.Fused
open Verif.Provenance

theorem posArray {l : Link} {n m : Nat} (h : LinkOK l n m) : PosArray l.pos n m :=
  ⟨h.len, h.zero, h.last, h.mono⟩

/-- What the searches before the kernel leave: entry `i` of every level is the row found for the target of
block `i`, and the rows of a level are the targets of the level above. -/
def StartsOK : List Link → List Nat → (Nat → Option Nat) → Nat → List (List Nat) → Prop
  | [], [], _, _, [] => True
  | l :: ls, n :: ns, target, nb, s :: ss => s.length = nb + 1 ∧
    (∀ i, i ≤ nb → ∃ t r, target i = some t ∧ binarySearchBefore (l.pos.map Int.ofNat) 0 n t = some r ∧ s[i]? = some r) ∧
    StartsOK ls ns (indirect s) nb ss
  | _, _, _, _, _ => False

/-- Orders of the threads and old contents of the results for every level. -/
def Launches (ls : List Link) (nb bs k : Nat) (os : List (List (Nat × Nat))) (js : List (List Nat)) : Prop :=
  os.length = ls.length ∧ js.length = ls.length ∧ (∀ o ∈ os, o.Perm (grid k bs)) ∧ ∀ j ∈ js, j.length = nb + 1

theorem chainFrom_length : ∀ {ls : List Lvl} {cur : Option (List Nat)} {acc ch : List Link} {crd : List Nat},
    chainFrom cur acc ls = some (ch, crd) → ch.length = acc.length + ls.length
  | [], cur, acc, ch, crd, h => by
    unfold chainFrom at h
    cases cur with
    | none => exact nomatch h
    | some c =>
      have h : some (acc, c) = some (ch, crd) := h
      rw [← (Prod.mk.inj (Option.some.inj h)).1]
      rfl
  | .comp pos c :: ls, cur, acc, ch, crd, h => by
    unfold chainFrom at h
    rw [chainFrom_length h]
    simp only [List.length_cons]
    omega
  | .dense n :: ls, cur, acc, ch, crd, h => by unfold chainFrom at h; exact nomatch h

theorem chain_length {lv : List Lvl} {ch : List Link} {crd : List Nat} (h : chain lv = some (ch, crd)) :
    ch.length + 1 = lv.length := by
  cases lv with
  | nil => exact nomatch h
  | cons l ls =>
    cases l with
    | dense n => have := chainFrom_length (ls := ls) h; simp at this ⊢; omega
    | comp pos c => have := chainFrom_length (ls := ls) h; simp at this ⊢; omega

theorem blockStarts_ok {nb bs k : Nat} (hk : searchBlocks nb bs = some k) :
    ∀ {ls : List Link} {ns : List Nat} {m : Nat} {target : Nat → Option Nat} {os : List (List (Nat × Nat))} {js : List (List Nat)},
      ChainOK ls ns m → (∀ n ∈ ns, n ≤ 1073741823) → (∀ i, i ≤ nb → ∃ t, target i = some t) → Launches ls nb bs k os js →
      ∃ ss, blockStarts ls ns target nb bs os js = some ss ∧ StartsOK ls ns target nb ss
  | [], [], _, _, _, _, _, _, _, _ => ⟨[], by unfold blockStarts; rfl, trivial⟩
  | [], _ :: _, _, _, _, _, hc, _, _, _ => hc.elim
  | _ :: _, [], _, _, _, _, hc, _, _, _ => hc.elim
  | l :: ls, n :: ns, m, target, [], js, _, _, _, hL => by have := hL.1; simp at this
  | l :: ls, n :: ns, m, target, _ :: _, [], _, _, _, hL => by have := hL.2.1; simp at this
  | l :: ls, n :: ns, m, target, o :: os, j :: js, hc, hb, ht, hL => by
    obtain ⟨h1, _, h2⟩ := hc
    obtain ⟨g1, g2, g3, g4⟩ := hL
    obtain ⟨res, e1, e2, e3⟩ := launch_fill (posArray h1) (hb n List.mem_cons_self) hk ht (g3 o List.mem_cons_self)
      (g4 j List.mem_cons_self)
    obtain ⟨ss, f1, f2⟩ := blockStarts_ok hk (target := indirect res) (os := os) (js := js) h2
      (fun x hx => hb x (List.mem_cons_of_mem _ hx)) (by
        intro i hi
        exact ⟨res[i]'(by omega), List.getElem?_eq_getElem (by omega)⟩)
      ⟨by simpa using g1, by simpa using g2, fun x hx => g3 x (List.mem_cons_of_mem _ hx),
        fun x hx => g4 x (List.mem_cons_of_mem _ hx)⟩
    refine ⟨res :: ss, ?_, e2, e3, f2⟩
    unfold blockStarts
    rw [e1]
    simp only
    rw [f1]
    rfl

theorem threadStart_valid : ∀ {ls : List Link} {ns : List Nat} {m t tb tb' nb b : Nat} {target : Nat → Option Nat}
    {ss : List (List Nat)}, ChainOK ls ns m → t < m → (∀ l ∈ ls, NoEmpty l.pos) → (∀ n ∈ ns, n ≤ 1073741823) →
    StartsOK ls ns target nb ss → b < nb → target b = some tb → target (b + 1) = some tb' → tb ≤ t → t ≤ tb' →
    ∃ st, threadStart ls ss b t = some st ∧ Valid ls t st
  | [], [], _, _, _, _, _, _, _, _, _, _, _, _, _, _, _, _, _, _ => ⟨[], by unfold threadStart; rfl, rfl⟩
  | [], _ :: _, _, _, _, _, _, _, _, _, hc, _, _, _, _, _, _, _, _, _ => hc.elim
  | _ :: _, [], _, _, _, _, _, _, _, _, hc, _, _, _, _, _, _, _, _, _ => hc.elim
  | _ :: _, _ :: _, _, _, _, _, _, _, _, [], _, _, _, _, hS, _, _, _, _, _ => hS.elim
  | l :: ls, n :: ns, m, t, tb, tb', nb, b, target, s :: ss, hc, ht, hne, hb, hS, hbn, h1, h2, h3, h4 => by
    obtain ⟨hl, _, hcs⟩ := hc
    obtain ⟨_, hs, hS'⟩ := hS
    obtain ⟨x, lo, a1, a2, a3⟩ := hs b (by omega)
    obtain ⟨y, hi, c1, c2, c3⟩ := hs (b + 1) (by omega)
    rw [h1] at a1
    have a1 := Option.some.inj a1
    subst a1
    rw [h2] at c1
    have c1 := Option.some.inj c1
    subst c1
    obtain ⟨r, e1, ⟨e2, ⟨a, ha, hat⟩, e4⟩, e5, e6⟩ := search_block (posArray hl) (hb n List.mem_cons_self) a2 c2 h3 h4
    have hrn : r < n := by
      rcases Nat.lt_or_ge r n with h | h
      · exact h
      · have : r = n := by omega
        subst this
        rw [hl.last] at ha
        have := Option.some.inj ha
        omega
    obtain ⟨v, hv⟩ := pos_get hl (show r + 1 ≤ n by omega)
    have htv : t < v := by
      rcases e4 with e4 | e4
      · rw [ha] at e4
        have := Option.some.inj e4
        have := hne l List.mem_cons_self r a v ha hv
        omega
      · exact e4 (r + 1) v (by omega) (by omega) hv
    obtain ⟨c, hc⟩ := coordAt_some hl hrn
    obtain ⟨st, hst, hval⟩ := threadStart_valid (target := indirect s) hcs hrn
      (fun x hx => hne x (List.mem_cons_of_mem _ hx)) (fun x hx => hb x (List.mem_cons_of_mem _ hx)) hS' hbn a3 c3 e5 e6
    refine ⟨(r, c) :: st, ?_, ⟨a, v, ha, hv, hat, htv⟩, hc, hval⟩
    unfold threadStart
    rw [a3, c3]
    simp only
    rw [e1]
    simp only
    rw [hc, hst]

/-- The search for a single level of rows that are all stored: it succeeds wherever the thread starts, and
at a stored position the loop then moves to the owner. -/
theorem threadStart_dense {l : Link} {n m t tb tb' nb b : Nat} {target : Nat → Option Nat} {ss : List (List Nat)}
    (hl : LinkOK l n m) (hd : l.crd = none) (hb : n ≤ 1073741823) (hS : StartsOK [l] [n] target nb ss)
    (hbn : b < nb) (h1 : target b = some tb) (h2 : target (b + 1) = some tb') (h3 : tb ≤ t) (h4 : t ≤ tb') :
    ∃ st, threadStart [l] ss b t = some st ∧ (t < m → ∃ st', track [l] t st = some st' ∧ Valid [l] t st') := by
  cases ss with
  | nil => exact hS.elim
  | cons s ss =>
    obtain ⟨_, hs, _⟩ := hS
    obtain ⟨x, lo, a1, a2, a3⟩ := hs b (by omega)
    obtain ⟨y, hi, c1, c2, c3⟩ := hs (b + 1) (by omega)
    rw [h1] at a1
    have a1 := Option.some.inj a1
    subst a1
    rw [h2] at c1
    have c1 := Option.some.inj c1
    subst c1
    obtain ⟨r, e1, ⟨e2, ⟨a, ha, hat⟩, e4⟩, _, _⟩ := search_block (posArray hl) hb a2 c2 h3 h4
    have hco : coordAt l r = some r := by unfold coordAt; rw [hd]
    refine ⟨[(r, r)], ?_, fun ht => track_dense hl hd ht e2 rfl ?_ ?_⟩
    · unfold threadStart
      rw [a3, c3]
      simp only
      rw [e1]
      simp only
      rw [hco]
      unfold threadStart
      rfl
    · intro x hx; rw [ha] at hx; rw [← Option.some.inj hx]; exact hat
    · intro q x hq hx
      rcases e4 with e4 | e4
      · rw [ha] at e4
        have := Option.some.inj e4
        have := hl.mono r q a x (by omega) ha hx
        omega
      · have hqn : q ≤ n := by
          have := (List.getElem?_eq_some_iff.1 hx).1
          have := hl.len
          omega
        have := e4 q x hq hqn hx
        omega

/-- C84. The searches of the blocks: for every order of the threads of the search kernels and whatever
the memory of the results held, a thread that starts at a position `start` of its block visits the
components `start, start + 1, ...` with the coordinates they have when the levels are iterated one by
one. Below compressed levels no segment is empty and, with three or more levels, no row of a dense first
level is. -/
theorem gpu_thread_partial {dims : List Nat} {lv : List Lvl} {m : Nat} (hl : dims.length = lv.length)
    (hw : IndexWF 1 (dims.zip lv) m) (hf : Fusable lv) (hne : NoEmptyBelow lv) (hz : RowsFilled lv)
    (hb : ∀ ns, parentSizes lv = some ns → ∀ n ∈ ns, n ≤ 1073741823)
    {nb bs vpb k : Nat} (hk : searchBlocks nb bs = some k) (hov : nb * vpb < 2147483648)
    {ch : List Link} {crd ns : List Nat} (hch : chain lv = some (ch, crd)) (hns : parentSizes lv = some ns)
    {os : List (List (Nat × Nat))} {js : List (List Nat)} (hL : Launches ch nb bs k os js) :
    ∃ out starts, unfused lv = some out ∧ blockStarts ch ns (direct vpb) nb bs os js = some starts ∧
      ∀ b start len, b < nb → b * vpb ≤ start → start ≤ (b + 1) * vpb →
        (start < m ∨ ∃ n pos crd, lv = [.dense n, .comp pos crd]) →
        threadLoop lv starts b start len = some ((out.drop start).take len) := by
  obtain ⟨ch', crd', ns', out, h1, h2, h3, h4, h5, h6, h7⟩ := setup hl hw hf hne
  rw [hch] at h1
  obtain ⟨rfl, rfl⟩ := Prod.mk.inj (Option.some.inj h1)
  rw [hns] at h3
  have h3 := Option.some.inj h3
  subst h3
  have hdir : ∀ i, i ≤ nb → direct vpb i = some (i * vpb) := by
    intro i hi
    have : i * vpb ≤ nb * vpb := Nat.mul_le_mul_right _ hi
    unfold direct chk
    rw [if_pos (by omega)]
  obtain ⟨ss, g1, g2⟩ := blockStarts_ok hk (target := direct vpb) h6 (hb ns hns) (fun i hi => ⟨_, hdir i hi⟩) hL
  refine ⟨out, ss, h4, g1, ?_⟩
  intro b start len hbn hs1 hs2 hm
  have hstart : ∃ st, threadStart ch ss b start = some st ∧
      (start < m → ∃ st', track ch start st = some st' ∧ Valid ch start st') := by
    have hfull : (∀ l ∈ ch, NoEmpty l.pos) → start < m → ∃ st, threadStart ch ss b start = some st ∧
        (start < m → ∃ st', track ch start st = some st' ∧ Valid ch start st') := by
      intro hfl hsm
      obtain ⟨st, e1, e2⟩ := threadStart_valid h6 hsm hfl (hb ns hns) g2 hbn (hdir b (by omega)) (hdir (b + 1) (by omega)) hs1 hs2
      exact ⟨st, e1, fun _ => ⟨st, track_valid h6 e2, e2⟩⟩
    cases lv with
    | nil => exact hf.elim
    | cons l ls =>
      cases ls with
      | nil => exact hf.elim
      | cons l2 ls =>
        obtain ⟨pos, crd2, rfl⟩ := hf l2 List.mem_cons_self
        cases l with
        | comp pos0 crd0 =>
          refine hfull (chainFrom_full (.comp pos crd2 :: ls) crd0 [] ch crd hne (by simp) hch) ?_
          rcases hm with hm | ⟨n, p, c, hm⟩
          · exact hm
          · simp at hm
        | dense n =>
          have hch : chainFrom (some crd2) [⟨none, pos⟩] ls = some (ch, crd) := hch
          cases ls with
          | nil =>
            have hch : some ([⟨none, pos⟩], crd2) = some (ch, crd) := hch
            have hch := (Prod.mk.inj (Option.some.inj hch)).1
            subst hch
            cases ns with
            | nil => exact h6.elim
            | cons n' ns =>
              cases ns with
              | cons _ _ => exact h6.2.2.elim
              | nil =>
                exact threadStart_dense h6.1 rfl (hb _ hns n' List.mem_cons_self) g2 hbn (hdir b (by omega))
                  (hdir (b + 1) (by omega)) hs1 hs2
          | cons l3 ls =>
            refine hfull (chainFrom_full (l3 :: ls) crd2 _ ch crd ?_ ?_ hch) ?_
            · obtain ⟨pos3, crd3, rfl⟩ := hf l3 (by simp)
              exact hne
            · intro l hl
              rw [List.mem_singleton] at hl
              subst hl
              exact hz
            · rcases hm with hm | ⟨n, p, c, hm⟩
              · exact hm
              · simp at hm
  obtain ⟨st, e1, e2⟩ := hstart
  unfold threadLoop
  rw [hch, h2]
  simp only
  rw [e1]
  simp only
  rcases Nat.lt_or_ge start m with hsm | hsm
  · rw [filter_guard m len start (by omega),
      loop_events h6 h5 (fun k h => h7 k (by omega)) _ start st (by omega) (fun _ => e2 hsm)]
    congr 1
    rcases Nat.le_total len (m - start) with h | h
    · rw [Nat.min_eq_left h]
    · rw [Nat.min_eq_right h, List.take_of_length_le (by simp; omega), List.take_of_length_le (by simp; omega)]
  · rw [List.filter_eq_nil_iff.2, List.drop_eq_nil_of_le (by omega)]
    · simp [loop]
    · intro x hx
      rw [List.mem_range'_1] at hx
      simp [posGuardSkips]; omega

/-- C84. A whole kernel: the blocks and threads together visit what the loops over the levels visit, each
component once and with its coordinates, if every thread starts at a component or the tensor is a matrix
in CSR. -/
theorem gpu_kernel_partial {dims : List Nat} {lv : List Lvl} {m : Nat} (hl : dims.length = lv.length)
    (hw : IndexWF 1 (dims.zip lv) m) (hf : Fusable lv) (hne : NoEmptyBelow lv) (hz : RowsFilled lv)
    (hb : ∀ ns, parentSizes lv = some ns → ∀ n ∈ ns, n ≤ 1073741823)
    {nb tpb len k : Nat} (hk : searchBlocks nb tpb = some k) (hov : nb * (tpb * len) < 2147483648)
    (hcov : m ≤ nb * (tpb * len))
    (hlast : (∀ c, c < nb * tpb → c * len < m) ∨ ∃ n pos crd, lv = [.dense n, .comp pos crd])
    {os : List (List (Nat × Nat))} {js : List (List Nat)}
    (hos : os.length + 1 = lv.length) (hjs : js.length + 1 = lv.length)
    (ho : ∀ o ∈ os, o.Perm (grid k tpb)) (hj : ∀ j ∈ js, j.length = nb + 1) :
    ∃ out, unfused lv = some out ∧ kernel lv nb tpb len os js = some out := by
  obtain ⟨ch, crd, ns, out', h1, h2, h3, h4, h5, h6, h7⟩ := setup hl hw hf hne
  have hlen := chain_length h1
  obtain ⟨out, starts, e1, e2, e3⟩ := gpu_thread_partial hl hw hf hne hz hb hk hov h1 h3
    (os := os) (js := js) ⟨by omega, by omega, ho, hj⟩
  refine ⟨out, e1, ?_⟩
  rw [h4] at e1
  have e1 := Option.some.inj e1
  subst e1
  obtain ⟨htp, _, _⟩ := searchBlocks_some hk
  unfold kernel
  rw [h1, h3]
  simp only
  rw [e2]
  simp only
  rw [forAll_eq (g := fun c => (out'.drop (c * len)).take len)]
  · rw [chunks_flatMap, List.take_of_length_le]
    rw [Nat.mul_assoc]
    omega
  · intro c hc
    rw [List.mem_range] at hc
    have hdm := Nat.div_add_mod c tpb
    have hmod := Nat.mod_lt c htp
    refine e3 (c / tpb) (c * len) len (Nat.div_lt_of_lt_mul (by rw [Nat.mul_comm]; exact hc)) ?_ ?_
      (hlast.imp (fun h => h c hc) id)
    · rw [← Nat.mul_assoc]
      exact Nat.mul_le_mul_right _ (Nat.div_mul_le_self c tpb)
    · rw [← Nat.mul_assoc]
      refine Nat.mul_le_mul_right _ ?_
      rw [Nat.add_mul, Nat.one_mul, Nat.mul_comm]
      omega

/-- C84. A kernel over a matrix in CSR: nothing is assumed of its rows, and threads of the last block may
have nothing to do. -/
theorem gpu_kernel_csr {d n m w : Nat} {pos crd : List Nat} (hw : IndexWF 1 [(d, .dense n), (w, .comp pos crd)] m)
    (hb : ∀ ns, parentSizes [.dense n, .comp pos crd] = some ns → ∀ n ∈ ns, n ≤ 1073741823)
    {nb tpb len k : Nat} (hk : searchBlocks nb tpb = some k) (hov : nb * (tpb * len) < 2147483648)
    (hcov : m ≤ nb * (tpb * len)) {o : List (Nat × Nat)} {j : List Nat} (ho : o.Perm (grid k tpb)) (hj : j.length = nb + 1) :
    ∃ out, unfused [.dense n, .comp pos crd] = some out ∧ kernel [.dense n, .comp pos crd] nb tpb len [o] [j] = some out :=
  gpu_kernel_partial (dims := [d, w]) (lv := [.dense n, .comp pos crd]) (m := m) rfl hw
    (fun x hx => by rw [List.mem_singleton] at hx; exact ⟨pos, crd, hx⟩) trivial trivial hb hk hov hcov
    (Or.inr ⟨_, _, _, rfl⟩) rfl rfl (by simpa using ho) (by simpa using hj)

/-! ### cases -/

/-- The levels of the examples of C54 on two blocks of two threads, with the threads of the search run
backwards. -/
example : searchBlocks 2 2 = some 2 ∧ (grid 2 2).reverse.Perm (grid 2 2) ∧
    kernel exCSR 2 2 1 [(grid 2 2).reverse] [[7, 7, 7]] = some [([1, 1], 0), ([1, 3], 1), ([4, 0], 2)] :=
  ⟨rfl, List.reverse_perm _, by decide +kernel⟩

/-- Three compressed levels with four components on two blocks of two threads. -/
example : kernel exCSF 2 2 1 [grid 2 2, grid 2 2] [[9, 9, 9], [0, 0, 0]] =
    some [([0, 0, 5], 0), ([0, 3, 0], 1), ([0, 3, 2], 2), ([2, 1, 7], 3)] := by decide +kernel

/-- C84 is false for compressed levels when the number of components does not fill all threads: a thread
that starts after the last component looks up the coordinate of a row that does not exist, out of the
bounds of the array, before it finds that it has nothing to do. -/
theorem thread_past_end_fails :
    unfused [.comp [0, 2] [0, 1], .comp [0, 1, 3] [0, 0, 1]] = some [([0, 0], 0), ([1, 0], 1), ([1, 1], 2)] ∧
    kernel [.comp [0, 2] [0, 1], .comp [0, 1, 3] [0, 0, 1]] 2 2 1 [grid 2 2] [[0, 0, 0]] = none :=
  ⟨by decide +kernel, by decide +kernel⟩

/-- C84 is false with an empty row below which there are two levels, as on a CPU: the search finds the
empty row and the loop stays there. -/
theorem empty_row_fails :
    unfused [.dense 5, .comp [0, 1, 1, 1, 1, 2] [0, 0], .comp [0, 1, 2] [0, 0]] = some [([0, 0, 0], 0), ([4, 0, 0], 1)] ∧
    kernel [.dense 5, .comp [0, 1, 1, 1, 1, 2] [0, 0], .comp [0, 1, 2] [0, 0]] 2 1 1 [grid 3 1, grid 3 1] [[0, 0, 0], [0, 0, 0]] =
      some [([0, 0, 0], 0), ([3, 0, 0], 1)] :=
  ⟨by decide +kernel, by decide +kernel⟩

theorem runThreads_none {a : List Int} {hi : Nat} {target : Nat → Option Nat} {nb bs : Nat} : ∀ (o : List (Nat × Nat)) (j : List Nat)
    (th : Nat × Nat), th ∈ o → (∀ r, threadStep a hi target nb bs th r = none) → runThreads a hi target nb bs o j = none
  | x :: o, j, th, hm, hn => by
    unfold runThreads
    rcases List.mem_cons.1 hm with rfl | hm
    · rw [hn]
    · cases threadStep a hi target nb bs x j with
      | none => rfl
      | some j' => exact runThreads_none o j' th hm hn

/-- C84 is false for tensors with nearly as many components as fit an `int`: the end of the last block,
which no thread needs, does not fit, so that the search of the blocks overflows, whatever the tensor and
however the threads are ordered. -/
theorem last_block_overflow_fails {nb vpb bs k : Nat} (hk : searchBlocks nb bs = some k) (hov : 2147483648 ≤ nb * vpb)
    (l : Link) (ls : List Link) (n : Nat) (ns : List Nat) {os : List (List (Nat × Nat))} {js : List (List Nat)}
    (hL : Launches (l :: ls) nb bs k os js) :
    blockStarts (l :: ls) (n :: ns) (direct vpb) nb bs os js = none := by
  obtain ⟨g1, g2, g3, g4⟩ := hL
  cases os with
  | nil => exact nomatch g1
  | cons o os =>
    cases js with
    | nil => exact nomatch g2
    | cons j js =>
      obtain ⟨hb, hcov, hsz⟩ := searchBlocks_some hk
      unfold blockStarts
      rw [runThreads_none o j (nb / bs, nb % bs) ?_ ?_]
      · refine (g3 o List.mem_cons_self).mem_iff.2 (mem_grid.2 ⟨?_, Nat.mod_lt _ hb⟩)
        exact Nat.div_lt_of_lt_mul (by rw [Nat.mul_comm]; omega)
      · intro r
        unfold threadStep
        have he : nb / bs * bs + nb % bs = nb := by rw [Nat.mul_comm]; exact Nat.div_add_mod nb bs
        simp only
        rw [he]
        have hc : chk nb = some nb := by unfold chk; rw [if_pos (by omega)]
        rw [hc]
        simp only
        rw [if_neg (by omega)]
        have hd : direct vpb nb = none := by unfold direct chk; rw [if_neg (by omega)]
        rw [hd]

/-- 2147483647 components in blocks of 512 threads with 128 components each: 32768 blocks. -/
example : searchBlocks 32768 512 = some 65 ∧ 2147483648 ≤ 32768 * (512 * 128) ∧ 2147483647 ≤ 32768 * (512 * 128) := by
  decide +kernel

end Verif.GpuSearch
