import Verif.EndToEnd.Spec
import Verif.EndToEnd.Step
import Verif.Assembly.Theorems
import Verif.Tensor.Lemmas
import Verif.Merge.Theorems
/-! Lemmas on values of stored tensors, loop nests and mode orderings. -/
namespace Verif.EndToEnd
open Verif.Merge
open Verif.Merge.Expr
open Verif.Pack (Kind Row permute unpermute iterate firstAt inRange walk forAll IndexWF lexCmp)
open Verif.Assembly

variable {V : Type}

/-! ### The value at a coordinate -/

theorem firstAt_append (z : V) (A B : List (Row V)) (c : List Nat) :
    firstAt z (A ++ B) c = if c ∈ A.map Prod.fst then firstAt z A c else firstAt z B c := by
  induction A with
  | nil => simp
  | cons r A ih =>
    rw [List.cons_append, Tensor.firstAt_cons, Tensor.firstAt_cons, ih]
    by_cases h : r.1 = c
    · simp [h]
    · have h' : ¬ c = r.1 := fun h2 => h h2.symm
      simp only [if_neg h, List.map_cons, List.mem_cons, h', false_or]

theorem firstAt_under_same (z : V) (k : Nat) (rs : List (Row V)) (cs : List Nat) :
    firstAt z (under k rs) (k :: cs) = firstAt z rs cs := by
  induction rs with
  | nil => rfl
  | cons r rs ih =>
    show firstAt z ((k :: r.1, r.2) :: under k rs) (k :: cs) = _
    rw [Tensor.firstAt_cons, Tensor.firstAt_cons, ih]
    simp

theorem not_mem_under {k c : Nat} (h : k ≠ c) (rs : List (Row V)) (cs : List Nat) :
    (c :: cs) ∉ (under k rs).map Prod.fst := by
  intro hm
  simp only [under, List.map_map, List.mem_map, Function.comp] at hm
  obtain ⟨r, _, hr⟩ := hm
  exact h (List.cons.inj hr).1

theorem firstAt_blocks {α : Type} (z : V) (key : α → Nat) (f : α → List (Row V)) (c : Nat) (cs : List Nat) :
    ∀ L : List α, (L.map key).Nodup → firstAt z (L.flatMap (fun x => under (key x) (f x))) (c :: cs) =
      match L.find? (fun x => key x == c) with
      | some x => firstAt z (f x) cs
      | none => z := by
  intro L
  induction L with
  | nil => intro _; rfl
  | cons x L ih =>
    intro hnd
    rw [List.map_cons, List.nodup_cons] at hnd
    rw [List.flatMap_cons, firstAt_append, List.find?_cons]
    by_cases h : key x = c
    · have hb : (key x == c) = true := by simpa using h
      rw [hb]
      simp only
      subst h
      split
      · rw [firstAt_under_same]
      · rename_i hn
        rw [ih hnd.2]
        have hnone : L.find? (fun y => key y == key x) = none := by
          rw [List.find?_eq_none]
          intro y hy hk
          exact hnd.1 (List.mem_map.2 ⟨y, hy, by simpa using hk⟩)
        rw [hnone]
        simp only
        rw [← firstAt_under_same z (key x), Pack.firstAt_not_mem hn]
    · have hb : (key x == c) = false := by simpa using h
      rw [hb, if_neg (not_mem_under h _ _), ih hnd.2]

theorem firstAt_all_fill {z : V} : ∀ {rows : List (Row V)}, (∀ r ∈ rows, r.2 = z) → ∀ c, firstAt z rows c = z := by
  intro rows
  induction rows with
  | nil => intro _ c; rfl
  | cons r rows ih =>
    intro h c
    rw [Tensor.firstAt_cons]
    split
    · exact h r List.mem_cons_self
    · exact ih (fun x hx => h x (List.mem_cons_of_mem _ hx)) c

/-! ### What a tree stores -/

/-- The value the loops computed at a coordinate. -/
def treeVal (z : V) : (d : Nat) → Tree V d → List Nat → V
  | 0, t, _ => valOf t
  | _ + 1, _, [] => z
  | d + 1, t, c :: cs => match (entries t).lookup c with
    | some t' => treeVal z d t' cs
    | none => z

theorem treeVal_cons (z : V) (d : Nat) (t : Tree V (d + 1)) (c : Nat) (cs : List Nat) :
    treeVal z (d + 1) t (c :: cs) = ((entries t).lookup c).elim z (fun t' => treeVal z d t' cs) := by
  simp only [treeVal]
  cases (entries t).lookup c <;> rfl

theorem unvisited_fill (z : V) : ∀ (rl : List (Nat × Kind)), ∀ r ∈ unvisited z rl, r.2 = z := by
  intro rl
  induction rl with
  | nil => intro r hr; simp only [unvisited, List.mem_singleton] at hr; subst hr; rfl
  | cons x rl ih =>
    obtain ⟨n, k⟩ := x
    intro r hr
    cases k with
    | dense =>
      simp only [unvisited, List.mem_flatMap, under, List.mem_map] at hr
      obtain ⟨_, _, r', hr', rfl⟩ := hr
      exact ih r' hr'
    | sparse => simp [unvisited] at hr

theorem range_find (n c : Nat) (h : c < n) : (List.range n).find? (fun x => x == c) = some c := by
  rw [List.find?_eq_some_iff_getElem]
  refine ⟨by simp, c, by simpa using h, by simp, ?_⟩
  intro j hj
  simp
  omega

theorem find_lookup {α : Type} (c : Nat) : ∀ L : List (Nat × α),
    (L.find? (fun e => e.1 == c)).map Prod.snd = L.lookup c := by
  intro L
  induction L with
  | nil => rfl
  | cons a L ih =>
    obtain ⟨k, x⟩ := a
    rw [List.find?_cons, List.lookup_cons]
    by_cases h : k = c
    · subst h; simp
    · have h1 : (k == c) = false := by simpa using h
      have h2 : (c == k) = false := by simpa using fun h' : c = k => h h'.symm
      rw [h1, h2]; exact ih

theorem firstAt_stored (z : V) : ∀ (rl : List (Nat × Kind)) (t : Tree V rl.length) (c : List Nat),
    visitsSorted rl t → c ∈ box (rl.map Prod.fst) → firstAt z (stored z rl t) c = treeVal z rl.length t c := by
  intro rl
  induction rl with
  | nil =>
    intro t c _ hc
    simp only [List.map_nil, box, List.mem_singleton] at hc
    subst hc
    show firstAt z [([], valOf t)] [] = valOf t
    rw [Tensor.firstAt_cons, if_pos rfl]
  | cons x rl ih =>
    obtain ⟨n, k⟩ := x
    intro t c hv hc
    simp only [List.map_cons, box, List.mem_flatMap, List.mem_range, List.mem_map] at hc
    obtain ⟨c0, hc0, cs, hcs, rfl⟩ := hc
    obtain ⟨hs, hlt, hsub⟩ := hv
    have hmem : ∀ t', (entries t).lookup c0 = some t' → firstAt z (stored z rl t') cs = treeVal z rl.length t' cs := by
      intro t' ht'
      have h1 := find_lookup c0 (entries t)
      rw [ht'] at h1
      cases hf : (entries t).find? (fun e => e.1 == c0) with
      | none => rw [hf] at h1; cases h1
      | some e =>
        rw [hf] at h1
        simp only [Option.map_some, Option.some.injEq] at h1
        subst h1
        exact ih e.2 cs (hsub e (List.mem_of_find?_eq_some hf)) hcs
    cases k with
    | dense =>
      show firstAt z ((List.range n).flatMap (fun i => under i
        (match (entries t).lookup i with
          | some c => stored z rl c
          | none => unvisited z rl))) (c0 :: cs) =
        treeVal z (rl.length + 1) t (c0 :: cs)
      rw [treeVal_cons]
      have hnd : ((List.range n).map (fun i => i)).Nodup := by rw [List.map_id']; exact List.nodup_range
      rw [firstAt_blocks z (fun i => i) (fun i => match (entries t).lookup i with
          | some c => stored z rl c
          | none => unvisited z rl) c0 cs (List.range n) hnd, range_find n c0 hc0]
      simp only
      cases hl : (entries t).lookup c0 with
      | none => exact firstAt_all_fill (unvisited_fill z rl) cs
      | some t' => simp only [Option.elim]; exact hmem t' hl
    | sparse =>
      show firstAt z ((entries t).flatMap (fun e => under e.1 (stored z rl e.2))) (c0 :: cs) =
        treeVal z (rl.length + 1) t (c0 :: cs)
      rw [treeVal_cons]
      rw [firstAt_blocks z Prod.fst (fun e => stored z rl e.2) c0 cs (entries t)
        (hs.imp (fun h => Nat.ne_of_lt h)), ← find_lookup]
      cases hf : (entries t).find? (fun e => e.1 == c0) with
      | none => rfl
      | some e =>
        simp only [Option.map_some, Option.elim]
        refine hmem e.2 ?_
        rw [← find_lookup, hf]; rfl

theorem unvisited_sorted (z : V) : ∀ (rl : List (Nat × Kind)),
    ((unvisited z rl).map Prod.fst).Pairwise (fun a b => lexCmp a b < 0) ∧
    ∀ r ∈ unvisited z rl, inRange (rl.map Prod.fst) r.1 := by
  intro rl
  induction rl with
  | nil =>
    refine ⟨by simp [unvisited], ?_⟩
    intro r hr; simp only [unvisited, List.mem_singleton] at hr; subst hr
    exact ⟨rfl, by intro m h; simp at h⟩
  | cons x rl ih =>
    obtain ⟨n, k⟩ := x
    cases k with
    | sparse => exact ⟨by simp [unvisited], by intro r hr; simp [unvisited] at hr⟩
    | dense =>
      constructor
      · simp only [unvisited, List.map_flatMap]
        rw [List.pairwise_flatMap]
        constructor
        · intro i _
          simp only [under, List.map_map]
          have := ih.1
          rw [List.pairwise_map] at this ⊢
          refine this.imp ?_
          intro a b h
          simpa [lexCmp] using h
        · refine List.pairwise_lt_range.imp ?_
          intro i j hij a ha b hb
          simp only [under, List.map_map, List.mem_map, Function.comp] at ha hb
          obtain ⟨_, _, rfl⟩ := ha
          obtain ⟨_, _, rfl⟩ := hb
          simp only [lexCmp]
          rw [if_pos (by omega)]; omega
      · intro r hr
        simp only [unvisited, List.mem_flatMap, under, List.mem_map, List.mem_range] at hr
        obtain ⟨i, hi, r', hr', rfl⟩ := hr
        exact Pack.inRange_cons.2 ⟨i, r'.1, rfl, hi, ih.2 r' hr'⟩

theorem stored_sorted (z : V) : ∀ (rl : List (Nat × Kind)) (t : Tree V rl.length), visitsSorted rl t →
    ((stored z rl t).map Prod.fst).Pairwise (fun a b => lexCmp a b < 0) ∧
    ∀ r ∈ stored z rl t, inRange (rl.map Prod.fst) r.1 := by
  intro rl
  induction rl with
  | nil =>
    intro t _
    refine ⟨by simp [stored], ?_⟩
    intro r hr; simp only [stored, List.mem_singleton] at hr; subst hr
    exact ⟨rfl, by intro m h; simp at h⟩
  | cons x rl ih =>
    obtain ⟨n, k⟩ := x
    intro t hv
    obtain ⟨hs, hlt, hsub⟩ := hv
    have key : ∀ {α : Type} (L : List α) (key : α → Nat) (f : α → List (Row V)), (L.map key).Pairwise (· < ·) →
        (∀ x ∈ L, key x < n) → (∀ x ∈ L, ((f x).map Prod.fst).Pairwise (fun a b => lexCmp a b < 0) ∧
          ∀ r ∈ f x, inRange (rl.map Prod.fst) r.1) →
        ((L.flatMap (fun x => under (key x) (f x))).map Prod.fst).Pairwise (fun a b => lexCmp a b < 0) ∧
        ∀ r ∈ L.flatMap (fun x => under (key x) (f x)), inRange (n :: rl.map Prod.fst) r.1 := by
      intro α L key f h1 h2 h3
      constructor
      · rw [List.map_flatMap, List.pairwise_flatMap]
        constructor
        · intro i hi
          simp only [under, List.map_map]
          have := (h3 i hi).1
          rw [List.pairwise_map] at this ⊢
          refine this.imp ?_
          intro a b h
          simpa [lexCmp] using h
        · rw [List.pairwise_map] at h1
          refine h1.imp ?_
          intro i j hij a ha b hb
          simp only [under, List.map_map, List.mem_map, Function.comp] at ha hb
          obtain ⟨_, _, rfl⟩ := ha
          obtain ⟨_, _, rfl⟩ := hb
          simp only [lexCmp]
          rw [if_pos (by omega)]; omega
      · intro r hr
        simp only [List.mem_flatMap, under, List.mem_map] at hr
        obtain ⟨i, hi, r', hr', rfl⟩ := hr
        exact Pack.inRange_cons.2 ⟨key i, r'.1, rfl, h2 i hi, (h3 i hi).2 r' hr'⟩
    cases k with
    | sparse => exact key (entries t) Prod.fst (fun e => stored z rl e.2) hs hlt (fun e he => ih e.2 (hsub e he))
    | dense =>
      refine key (List.range n) (fun i => i) (fun i => match (entries t).lookup i with
          | some c => stored z rl c
          | none => unvisited z rl) (by rw [List.map_id']; exact List.pairwise_lt_range)
          (fun x hx => List.mem_range.1 hx) ?_
      intro i _
      cases hl : (entries t).lookup i with
      | none => exact unvisited_sorted z rl
      | some t' =>
        have h1 := find_lookup i (entries t)
        rw [hl] at h1
        cases hf : (entries t).find? (fun e => e.1 == i) with
        | none => rw [hf] at h1; cases h1
        | some e =>
          rw [hf] at h1
          simp only [Option.map_some, Option.some.injEq] at h1
          subst h1
          exact ih e.2 (hsub e (List.mem_of_find?_eq_some hf))

/-! ### Reading a stored tensor -/

theorem forAll_some {α : Type} {f : Nat → Option (List α)} : ∀ {l : List Nat} {out : List α}, forAll f l = some out →
    (∀ q ∈ l, f q = some ((f q).getD [])) ∧ out = l.flatMap (fun q => (f q).getD []) := by
  intro l
  induction l with
  | nil => intro out h; simp only [forAll, Option.some.injEq] at h; subst h; simp
  | cons q l ih =>
    intro out h
    simp only [forAll] at h
    split at h
    · rename_i a b ha hb
      cases h
      obtain ⟨h1, h2⟩ := ih hb
      refine ⟨?_, ?_⟩
      · intro x hx
        rcases List.mem_cons.1 hx with rfl | hx
        · rw [ha]; rfl
        · exact h1 x hx
      · rw [List.flatMap_cons, ha, ← h2]; rfl
    · cases h

theorem range'_find (key : Nat → Nat) (c : Nat) : ∀ (n a : Nat), (List.range' a n).find? (fun q => key q == c) =
    if c ∈ (List.range' a n).map key then some (a + ((List.range' a n).map key).idxOf c) else none := by
  intro n
  induction n with
  | zero => intro a; simp
  | succ n ih =>
    intro a
    rw [List.range'_succ, List.find?_cons, List.map_cons]
    by_cases h : key a = c
    · have hb : (key a == c) = true := by simpa using h
      rw [hb, h]
      simp
    · have hb : (key a == c) = false := by simpa using h
      have hb' : ¬ c = key a := fun h' => h h'.symm
      rw [hb]
      simp only
      rw [ih (a + 1), List.idxOf_cons, hb]
      simp only [List.mem_cons, hb', false_or, cond_false]
      split
      · congr 1; omega
      · rfl

theorem segment_of_wf {s n m : Nat} {pos crd : List Nat} {ls : List (Nat × Lvl)}
    (hw : IndexWF s ((n, .comp pos crd) :: ls) m) {p : Nat} (hp : p < s) :
    ∃ a b, pos[p]? = some a ∧ pos[p + 1]? = some b ∧ a ≤ b ∧ b ≤ crd.length ∧
      segment pos crd p = some (a, (crd.drop a).take (b - a)) ∧ ((crd.drop a).take (b - a)).Pairwise (· < ·) ∧
      ∀ x ∈ (crd.drop a).take (b - a), x < n := by
  obtain ⟨h1, h2, h3, h4, h5, h6, h7⟩ := hw
  have hp1 : p < pos.length := by omega
  have hp2 : p + 1 < pos.length := by omega
  have hs : s < pos.length := by omega
  rw [List.pairwise_iff_getElem] at h4
  have ha := List.getElem?_eq_getElem hp1
  have hb := List.getElem?_eq_getElem hp2
  have hab : pos[p] ≤ pos[p + 1] := h4 p (p + 1) hp1 hp2 (by omega)
  have hbc : pos[p + 1] ≤ crd.length := by
    rw [List.getElem?_eq_getElem hs, Option.some.injEq] at h3
    rw [← h3]
    by_cases hps : p + 1 = s
    · subst hps; exact Nat.le_refl _
    · exact h4 (p + 1) s hp2 hs (by omega)
  refine ⟨_, _, ha, hb, hab, hbc, ?_, h5 p _ _ ha hb, fun x hx => h6 x (List.mem_of_mem_drop (List.mem_of_mem_take hx))⟩
  unfold segment
  rw [ha, hb]
  simp only
  rw [if_pos ⟨hab, hbc⟩]

theorem take_drop_map (crd : List Nat) (a b : Nat) (hab : a ≤ b) (hbc : b ≤ crd.length) :
    (List.range' a (b - a)).map (fun q => crd.getD q 0) = (crd.drop a).take (b - a) := by
  apply List.ext_getElem
  · simp; omega
  · intro i h1 h2
    simp only [List.length_map, List.length_range'] at h1
    have : a + i < crd.length := by omega
    simp [List.getElem?_eq_getElem this]

theorem valueAt_walk (z : V) (vals : List V) : ∀ (dims : List Nat) (lv : List Lvl) (s p : Nat) (out : List (Row V)) (c : List Nat),
    dims.length = lv.length → IndexWF s (dims.zip lv) vals.length → p < s → inRange dims c → walk vals lv p = some out →
    valueAt z vals (lv.map some) c p = firstAt z out c := by
  intro dims
  induction dims with
  | nil =>
    intro lv s p out c hl hw hp hc hwalk
    cases lv with
    | cons _ _ => simp at hl
    | nil =>
      have hcn : c = [] := Pack.inRange_nil.1 hc
      subst hcn
      simp only [walk] at hwalk
      split at hwalk
      · cases hwalk
      · rename_i v hv
        cases hwalk
        rw [Tensor.firstAt_cons, if_pos rfl]
        simp [valueAt, hv]
  | cons n dims ih =>
    intro lv s p out c hl hw hp hc hwalk
    cases lv with
    | nil => simp at hl
    | cons l lv =>
      have hl' : dims.length = lv.length := by simpa using hl
      cases c with
      | nil => exact absurd hc.1 (by simp)
      | cons c0 cs =>
        obtain ⟨_, _, hceq, hc0, hcs⟩ := Pack.inRange_cons.1 hc
        cases hceq
        cases l with
        | dense nd =>
          obtain ⟨hnd0, hw'⟩ := hw
          subst hnd0
          simp only [walk] at hwalk
          obtain ⟨hq, hout⟩ := forAll_some hwalk
          have hsome : ∀ q ∈ List.range nd, walk vals lv (p * nd + q) = some ((walk vals lv (p * nd + q)).getD []) := by
            intro q hq'
            have := hq q hq'
            cases hwq : walk vals lv (p * nd + q) with
            | none => rw [hwq] at this; cases this
            | some w => rfl
          have hout' : out = (List.range nd).flatMap (fun q => under q ((walk vals lv (p * nd + q)).getD [])) := by
            rw [hout]
            rw [List.flatMap_def, List.flatMap_def]
            congr 1
            apply List.map_congr_left
            intro q hq'
            rw [hsome q hq']
            rfl
          have hnd : ((List.range nd).map (fun i => i)).Nodup := by rw [List.map_id']; exact List.nodup_range
          rw [hout', firstAt_blocks z (fun i => i) (fun q => (walk vals lv (p * nd + q)).getD []) c0 cs _ hnd,
            range_find nd c0 hc0]
          simp only [List.map_cons, valueAt, Merge.locate]
          refine ih lv (s * nd) (p * nd + c0) _ cs hl' hw' ?_ hcs (hsome c0 (List.mem_range.2 hc0))
          calc p * nd + c0 < p * nd + nd := by omega
            _ = (p + 1) * nd := by rw [Nat.add_mul, Nat.one_mul]
            _ ≤ s * nd := Nat.mul_le_mul_right _ hp
        | comp pos crd =>
          obtain ⟨a, b, ha, hb, hab, hbc, hseg, hsort, _⟩ := segment_of_wf hw hp
          have hw' : IndexWF crd.length (dims.zip lv) vals.length := hw.2.2.2.2.2.2
          simp only [walk, ha, hb] at hwalk
          obtain ⟨hq, hout⟩ := forAll_some hwalk
          have hcrd : ∀ q ∈ List.range' a (b - a), crd[q]? = some (crd.getD q 0) := by
            intro q hq'
            rw [List.mem_range'_1] at hq'
            have hql : q < crd.length := by omega
            simp [List.getElem?_eq_getElem hql]
          have hsome : ∀ q ∈ List.range' a (b - a), walk vals lv q = some ((walk vals lv q).getD []) := by
            intro q hq'
            have := hq q hq'
            rw [hcrd q hq'] at this
            cases hwq : walk vals lv q with
            | none => rw [hwq] at this; cases this
            | some w => rfl
          have hout' : out = (List.range' a (b - a)).flatMap (fun q => under (crd.getD q 0) ((walk vals lv q).getD [])) := by
            rw [hout, List.flatMap_def, List.flatMap_def]
            congr 1
            apply List.map_congr_left
            intro q hq'
            rw [hcrd q hq', hsome q hq']
            rfl
          have hkeys := take_drop_map crd a b hab hbc
          rw [hout', firstAt_blocks z (fun q => crd.getD q 0) (fun q => (walk vals lv q).getD []) c0 cs _
            (by rw [hkeys]; exact hsort.imp (fun h => Nat.ne_of_lt h)), range'_find, hkeys]
          simp only [List.map_cons, valueAt, Merge.locate, hseg]
          by_cases hm : c0 ∈ (crd.drop a).take (b - a)
          · simp only [if_pos hm]
            have hidx := List.idxOf_lt_length_of_mem hm
            rw [List.length_take, List.length_drop] at hidx
            refine ih lv crd.length _ _ cs hl' hw' (by omega) hcs (hsome _ ?_)
            rw [List.mem_range'_1]; omega
          · simp only [if_neg hm]

theorem walk_length {vals : List V} : ∀ {lv : List Lvl} {p : Nat} {out : List (Row V)}, walk vals lv p = some out →
    ∀ r ∈ out, r.1.length = lv.length := by
  intro lv
  induction lv with
  | nil =>
    intro p out h r hr
    simp only [walk] at h
    split at h
    · cases h
    · cases h; rw [List.mem_singleton.1 hr]; rfl
  | cons l lv ih =>
    intro p out h r hr
    cases l with
    | dense n =>
      simp only [walk] at h
      obtain ⟨h1, h2⟩ := forAll_some h
      subst h2
      obtain ⟨q, hq, hr⟩ := List.mem_flatMap.1 hr
      cases hw : walk vals lv (p * n + q) with
      | none => rw [hw] at hr; simp at hr
      | some w =>
        rw [hw] at hr
        simp only [Option.map_some, Option.getD_some, List.mem_map] at hr
        obtain ⟨r', hr', rfl⟩ := hr
        simp [ih hw r' hr']
    | comp pos crd =>
      simp only [walk] at h
      split at h
      · obtain ⟨h1, h2⟩ := forAll_some h
        subst h2
        obtain ⟨q, hq, hr⟩ := List.mem_flatMap.1 hr
        cases hc : crd[q]? with
        | none => rw [hc] at hr; simp at hr
        | some c =>
          rw [hc] at hr
          cases hw : walk vals lv q with
          | none => rw [hw] at hr; simp at hr
          | some w =>
            rw [hw] at hr
            simp only [Option.map_some, Option.getD_some, List.mem_map] at hr
            obtain ⟨r', hr', rfl⟩ := hr
            simp [ih hw r' hr']
      · cases h

theorem output_length {vals : Arr V} : ∀ {ls : List (Nat × Kind)} {sz : Nat} {cs : List CompSt} {r : List Lvl × List V},
    output sz ls cs vals = some r → r.1.length = ls.length := by
  intro ls
  induction ls with
  | nil =>
    intro sz cs r h
    simp only [output, Option.map_eq_some_iff] at h
    obtain ⟨_, _, rfl⟩ := h; rfl
  | cons x ls ih =>
    obtain ⟨n, k⟩ := x
    intro sz cs r h
    cases k with
    | dense =>
      simp only [output, Option.map_eq_some_iff] at h
      obtain ⟨r', hr', rfl⟩ := h
      simp [ih hr']
    | sparse =>
      cases cs with
      | nil => simp [output] at h
      | cons c cs =>
        simp only [output, Option.bind_eq_some_iff, Option.map_eq_some_iff] at h
        obtain ⟨_, _, _, _, r', hr', rfl⟩ := h
        simp [ih hr']

theorem run_length {cap : Nat} {fill : V} {ls : List (Nat × Kind)} {t : Tree V ls.length} {r : List Lvl × List V}
    (h : run cap fill ls t = some r) : r.1.length = ls.length := by
  simp only [run, Option.bind_eq_some_iff] at h
  obtain ⟨_, _, _, _, h⟩ := h
  exact output_length h

theorem packKernel_length {qs : List (Row V) → List (Row V)} {cap : Nat} {z : V} {add : V → V → V} {dims : List Nat}
    {kinds : List Kind} {perm : List Nat} {buffer : List (Row V)} {st : List Lvl × List V}
    (h : packKernel qs cap z add dims kinds perm buffer = some st) :
    st.1.length = ((permute perm dims).zip kinds).length := by
  simp only [packKernel, Option.bind_eq_some_iff] at h
  obtain ⟨_, _, h⟩ := h
  exact run_length h

/-! ### Mode orderings -/

theorem firstAt_iterate (z : V) {perm c : List Nat} (hc : perm.Perm (List.range c.length)) :
    ∀ (w : List (Row V)), (∀ r ∈ w, r.1.length = c.length) →
    firstAt z (w.map (fun r => (unpermute perm r.1, r.2))) c = firstAt z w (permute perm c) := by
  intro w
  induction w with
  | nil => intro _; rfl
  | cons r w ih =>
    intro hl
    rw [List.map_cons, Tensor.firstAt_cons, Tensor.firstAt_cons, ih (fun x hx => hl x (List.mem_cons_of_mem _ hx))]
    have hr := hl r List.mem_cons_self
    have heq : (unpermute perm r.1 = c) = (r.1 = permute perm c) := by
      apply propext
      constructor
      · intro h; rw [← h, Pack.permute_unpermute (by rw [hr]; exact hc)]
      · intro h; rw [h, Pack.unpermute_permute hc]
    simp only [heq]

theorem permute_map {perm vs : List Nat} (hp : perm.Perm (List.range vs.length)) (f : Nat → Nat) :
    permute perm (vs.map f) = (permute perm vs).map f := by
  unfold permute
  rw [List.map_map]
  apply List.map_congr_left
  intro j hj
  have hj' : j < vs.length := List.mem_range.1 (hp.mem_iff.1 hj)
  simp [List.getElem?_eq_getElem hj']

theorem mem_permute {perm vs : List Nat} (hp : perm.Perm (List.range vs.length)) {v : Nat} :
    v ∈ permute perm vs ↔ v ∈ vs := by
  unfold permute
  rw [List.mem_map]
  constructor
  · rintro ⟨j, hj, rfl⟩
    have hj' : j < vs.length := List.mem_range.1 (hp.mem_iff.1 hj)
    simp [List.getElem?_eq_getElem hj']
  · intro h
    obtain ⟨i, hi, rfl⟩ := List.getElem_of_mem h
    exact ⟨i, hp.mem_iff.2 (List.mem_range.2 hi), by simp [List.getElem?_eq_getElem hi]⟩

theorem permute_perm {perm vs : List Nat} (hp : perm.Perm (List.range vs.length)) : (permute perm vs).Perm vs := by
  have h := hp.map (fun j => vs.getD j 0)
  refine h.trans ?_
  have : (List.range vs.length).map (fun j => vs.getD j 0) = vs := by
    apply List.ext_getElem
    · simp
    · intro i h1 h2
      simp [List.getElem?_eq_getElem h2]
  rw [this]

/-! ### Coordinates of index variables -/

theorem coordOf_get {vs : List Nat} (hnd : vs.Nodup) (path : List Nat) {i : Nat} (hi : i < vs.length) :
    coordOf vs path vs[i] = path.getD i 0 := by
  unfold coordOf
  rw [hnd.idxOf_getElem i hi]

theorem coordOf_cons_ne {v w : Nat} (h : w ≠ v) (vs path : List Nat) (c : Nat) :
    coordOf (v :: vs) (c :: path) w = coordOf vs path w := by
  unfold coordOf
  rw [List.idxOf_cons]
  have hb : (v == w) = false := by simpa using fun h' : v = w => h h'.symm
  rw [hb]
  simp

theorem coordOf_cons_self (v : Nat) (vs path : List Nat) (c : Nat) : coordOf (v :: vs) (c :: path) v = c := by
  unfold coordOf
  simp

theorem coordOf_append_left {A p : List Nat} (hl : A.length = p.length) (B q : List Nat) {v : Nat} (h : v ∈ A) :
    coordOf (A ++ B) (p ++ q) v = coordOf A p v := by
  unfold coordOf
  rw [List.idxOf_append, if_pos h]
  have := List.idxOf_lt_length_of_mem h
  simp only [List.getD_eq_getElem?_getD]
  rw [List.getElem?_append_left (by omega)]

theorem coordOf_append_right {A p : List Nat} (hl : A.length = p.length) (B q : List Nat) {v : Nat} (h : v ∉ A) :
    coordOf (A ++ B) (p ++ q) v = coordOf B q v := by
  unfold coordOf
  rw [List.idxOf_append, if_neg h]
  simp only [List.getD_eq_getElem?_getD]
  rw [List.getElem?_append_right (by omega)]
  congr 2
  omega

theorem coordOf_permute {perm vs c : List Nat} (hp : perm.Perm (List.range vs.length)) (hnd : vs.Nodup)
    {v : Nat} (hv : v ∈ vs) : coordOf (permute perm vs) (permute perm c) v = coordOf vs c v := by
  have hplen : perm.length = vs.length := by rw [hp.length_eq, List.length_range]
  have hnd' : (permute perm vs).Nodup := (permute_perm hp).nodup_iff.2 hnd
  obtain ⟨j, hj, rfl⟩ := List.getElem_of_mem ((mem_permute hp).2 hv)
  have hj' : j < perm.length := by rw [Pack.permute_length] at hj; exact hj
  have hpj : perm[j] < vs.length := List.mem_range.1 (hp.mem_iff.1 (List.getElem_mem hj'))
  have e1 : (permute perm vs)[j] = vs[perm[j]] := by simp [permute, List.getElem?_eq_getElem hpj]
  rw [coordOf_get hnd' _ hj, e1, coordOf_get hnd _ hpj]
  simp [permute, hj']

/-! ### Levels of an access in a loop nest -/

theorem levelAt_not_mem {v : Nat} : ∀ {ws : List Nat} (lv : List Lvl), v ∉ ws → levelAt ws lv v = none := by
  intro ws
  induction ws with
  | nil => intro lv _; cases lv <;> rfl
  | cons w ws ih =>
    intro lv h
    cases lv with
    | nil => rfl
    | cons l lv =>
      simp only [List.mem_cons, not_or] at h
      simp only [levelAt, if_neg h.1]
      exact ih lv h.2

theorem valueAt_gaps (z : V) (vals : List V) : ∀ (vs sv : List Nat) (lv : List Lvl) (path : List Nat) (p : Nat), vs.Nodup →
    sv.Sublist vs → sv.length = lv.length → path.length = vs.length →
    valueAt z vals (vs.map (levelAt sv lv)) path p = valueAt z vals (lv.map some) (sv.map (coordOf vs path)) p := by
  intro vs
  induction vs with
  | nil =>
    intro sv lv path p _ hsub hl hpl
    have hsv := List.sublist_nil.1 hsub
    subst hsv
    cases lv with
    | nil => simp [valueAt]
    | cons _ _ => simp at hl
  | cons v vs ih =>
    intro sv lv path p hnd hsub hl hpl
    cases path with
    | nil => simp at hpl
    | cons c path =>
      have hpl' : path.length = vs.length := by simpa using hpl
      rw [List.nodup_cons] at hnd
      by_cases hv : v ∈ sv
      · -- the first level
        cases hsub with
        | cons _ h => exact absurd (h.subset hv) hnd.1
        | cons_cons _ h =>
          rename_i sv
          cases lv with
          | nil => simp at hl
          | cons l lv =>
            have hvs : v ∉ sv := fun h' => hnd.1 (h.subset h')
            have e1 : vs.map (levelAt (v :: sv) (l :: lv)) = vs.map (levelAt sv lv) := by
              apply List.map_congr_left
              intro w hw
              have : w ≠ v := fun h' => hnd.1 (h' ▸ hw)
              simp only [levelAt, if_neg this]
            have e2 : sv.map (coordOf (v :: vs) (c :: path)) = sv.map (coordOf vs path) := by
              apply List.map_congr_left
              intro w hw
              exact coordOf_cons_ne (fun (h' : w = v) => hvs (h' ▸ hw)) _ _ _
            rw [List.map_cons, List.map_cons, List.map_cons, e1, e2, coordOf_cons_self]
            have e3 : levelAt (v :: sv) (l :: lv) v = some l := by simp [levelAt]
            rw [e3]
            simp only [valueAt]
            cases Merge.locate (some l) p c with
            | none => rfl
            | some p' => exact ih sv lv path p' hnd.2 h (by simpa using hl) hpl'
      · have hsub' : sv.Sublist vs := by
          cases hsub with
          | cons _ h => exact h
          | cons_cons _ h => exact absurd List.mem_cons_self hv
        have e2 : sv.map (coordOf (v :: vs) (c :: path)) = sv.map (coordOf vs path) := by
          apply List.map_congr_left
          intro w hw
          exact coordOf_cons_ne (fun (h' : w = v) => hv (h' ▸ hw)) _ _ _
        rw [List.map_cons, levelAt_not_mem lv hv, e2]
        simp only [valueAt, Merge.locate]
        exact ih sv lv path p hnd.2 hsub' hl hpl'

theorem wfLevels_gaps (size : Nat → Nat) : ∀ (vs sv : List Nat) (lv : List Lvl) (s m : Nat), vs.Nodup →
    sv.Sublist vs → sv.length = lv.length → IndexWF s ((sv.map size).zip lv) m →
    wfLevels s (vs.map (fun v => (size v, levelAt sv lv v))) m := by
  intro vs
  induction vs with
  | nil =>
    intro sv lv s m _ hsub hl hw
    have hsv := List.sublist_nil.1 hsub
    subst hsv
    cases lv with
    | nil => simp only [List.map_nil, List.zip_nil_right, IndexWF] at hw; simp only [List.map_nil, wfLevels]; omega
    | cons _ _ => simp at hl
  | cons v vs ih =>
    intro sv lv s m hnd hsub hl hw
    rw [List.nodup_cons] at hnd
    by_cases hv : v ∈ sv
    · cases hsub with
      | cons _ h => exact absurd (h.subset hv) hnd.1
      | cons_cons _ h =>
        rename_i sv
        cases lv with
        | nil => simp at hl
        | cons l lv =>
          have e1 : vs.map (fun w => (size w, levelAt (v :: sv) (l :: lv) w)) = vs.map (fun w => (size w, levelAt sv lv w)) := by
            apply List.map_congr_left
            intro w hw
            have : w ≠ v := fun h' => hnd.1 (h' ▸ hw)
            simp only [levelAt, if_neg this]
          have e3 : levelAt (v :: sv) (l :: lv) v = some l := by simp [levelAt]
          rw [List.map_cons, e1, e3]
          rw [List.map_cons, List.zip_cons_cons] at hw
          cases l with
          | dense nd =>
            obtain ⟨h1, h2⟩ := hw
            subst h1
            exact ⟨rfl, ih sv lv _ m hnd.2 h (by simpa using hl) h2⟩
          | comp pos crd =>
            refine ⟨?_, ih sv lv _ m hnd.2 h (by simpa using hl) hw.2.2.2.2.2.2⟩
            intro p hp
            obtain ⟨a, b, _, _, _, _, h1, h2, h3⟩ := segment_of_wf hw hp
            exact ⟨a, _, h1, h2, h3⟩
    · have hsub' : sv.Sublist vs := by
        cases hsub with
        | cons _ h => exact h
        | cons_cons _ h => exact absurd List.mem_cons_self hv
      rw [List.map_cons, levelAt_not_mem lv hv]
      exact ih sv lv s m hnd.2 hsub' hl hw

/-! ### The loops -/

theorem sumBox_congr {o : Ops V} {dims : List Nat} {f g : List Nat → V} (h : ∀ x ∈ box dims, f x = g x) :
    sumBox o dims f = sumBox o dims g := by
  unfold sumBox
  have : ∀ (l : List (List Nat)) (acc : V), (∀ x ∈ l, f x = g x) →
      l.foldl (fun acc c => o.bin .add acc (f c)) acc = l.foldl (fun acc c => o.bin .add acc (g c)) acc := by
    intro l
    induction l with
    | nil => intros; rfl
    | cons x l ih =>
      intro acc h
      rw [List.foldl_cons, List.foldl_cons, h x List.mem_cons_self]
      exact ih _ (fun y hy => h y (List.mem_cons_of_mem _ hy))
  exact this _ _ h

theorem sumBox_zero {o : Ops V} (ho : ZeroLaws o) (dims : List Nat) : sumBox o dims (fun _ => o.zero) = o.zero := by
  unfold sumBox
  generalize box dims = l
  induction l with
  | nil => rfl
  | cons x l ih => rw [List.foldl_cons, ho.add_zero]; exact ih

theorem mapM_keys {α T : Type} (key : α → Nat) (f : α → Option (Nat × T)) (P : α → T → Prop) : ∀ (l : List α),
    (∀ x ∈ l, ∃ t, f x = some (key x, t) ∧ P x t) →
    ∃ ys, l.mapM f = some ys ∧ ys.map Prod.fst = l.map key ∧ ∀ y ∈ ys, ∃ x ∈ l, y.1 = key x ∧ P x y.2 := by
  intro l
  induction l with
  | nil => intro _; exact ⟨[], rfl, rfl, by simp⟩
  | cons x l ih =>
    intro h
    obtain ⟨t, h1, h2⟩ := h x List.mem_cons_self
    obtain ⟨ys, h3, h4, h5⟩ := ih (fun y hy => h y (List.mem_cons_of_mem _ hy))
    refine ⟨(key x, t) :: ys, ?_, ?_, ?_⟩
    · simp [List.mapM_cons, h1, h3]
    · simp [h4]
    · intro y hy
      rcases List.mem_cons.1 hy with rfl | hy
      · exact ⟨x, List.mem_cons_self, rfl, h2⟩
      · obtain ⟨x', hx', h⟩ := h5 y hy
        exact ⟨x', List.mem_cons_of_mem _ hx', h⟩

theorem kernelTree_spec (o : Ops V) (ho : ZeroLaws o) {srt : List Point → List Point} (hs : SortSpec srt)
    (vals : Nat → List V) (l2 : List Loop) : ∀ (rl : List (Nat × Kind)) (l1 : List Loop) (pos : Nat → Nat) (e : Expr V),
    rl.map Prod.fst = l1.map Loop.n → (∀ l ∈ l1 ++ l2, Consistent (ctxOf l) e) → Inside vals (l1 ++ l2) pos e →
    ∃ t, kernelTree o srt vals rl.length (l1 ++ l2) pos e = some t ∧ visitsSorted rl t ∧
      ∀ path ∈ box (l1.map Loop.n), treeVal o.zero rl.length t path =
        sumBox o (l2.map Loop.n) (fun x => evalAtPath o vals (l1 ++ l2) pos e (path ++ x)) := by
  intro rl
  induction rl with
  | nil =>
    intro l1 pos e hl hlin hin
    have hl1 : l1 = [] := by cases l1 with | nil => rfl | cons _ _ => simp at hl
    subst hl1
    obtain ⟨size, hwf⟩ := hin
    obtain ⟨h1, h2⟩ := kernel_spec o ho hs vals ([] ++ l2) pos e size hlin hwf
    rw [List.nil_append] at h1 h2
    refine ⟨leaf (leafOf o l2 (((box (l2.map Loop.n)).filter (visited o l2 pos e)).map
          (fun path => (path, e.eval o (fun k => valueAt o.zero (vals k) (levelsOf l2 k) path (pos k)))))), ?_, trivial, ?_⟩
    · show (kernel o srt vals ([] ++ l2) pos e).map _ = _
      rw [List.nil_append, h1]; rfl
    · intro path hp
      have hp' : path = [] := by simpa [box] using hp
      subst hp'
      show leafOf _ _ _ = _
      cases l2 with
      | nil =>
        show e.eval o _ = o.bin .add o.zero (e.eval o _)
        rw [ho.zero_add]; rfl
      | cons l ls =>
        show List.foldl _ _ _ = _
        rw [List.foldl_map]
        unfold sumBox
        exact foldl_filter_zero o ho (fun path => e.eval o (fun k => valueAt o.zero (vals k) (levelsOf (l :: ls) k) path (pos k)))
          _ _ _ h2
  | cons x rl ih =>
    obtain ⟨n, k⟩ := x
    intro l1 pos e hl hlin hin
    cases l1 with
    | nil => simp at hl
    | cons l l1 =>
      rw [List.map_cons, List.map_cons, List.cons.injEq] at hl
      obtain ⟨hn, hl⟩ := hl
      simp only at hn
      rw [List.cons_append] at hlin hin ⊢
      obtain ⟨hsegs, hrun, hsupp, hnsupp⟩ := loop_step o ho hs vals l (l1 ++ l2) pos e hlin hin
      generalize hev : evAt (ctxOf l) e ⟨crdOf l pos e.leaves, l.n⟩ = ev at hrun hsupp
      have hcoord : ∀ c, (ev c).coord = c := by intro c; rw [← hev]; rfl
      generalize hsp : (fun c => supp (ctxOf l) (present ⟨crdOf l pos e.leaves, l.n⟩ c) e) = sp at hrun
      have hspc : ∀ c, supp (ctxOf l) (present ⟨crdOf l pos e.leaves, l.n⟩ c) e = sp c := fun c => by rw [← hsp]
      simp only [hspc] at hsupp hnsupp
      obtain ⟨ys, hy1, hy2, hy3⟩ := mapM_keys (fun v : Event V => v.coord)
        (fun (v : Event V) => match v.stmt with
          | none => none
          | some e' => (kernelTree o srt vals rl.length (l1 ++ l2) (nextPos l pos v) e').map (fun t => (v.coord, t)))
        (fun v t => visitsSorted rl t ∧ ∀ path ∈ box (l1.map Loop.n), treeVal o.zero rl.length t path =
          sumBox o (l2.map Loop.n) (fun x => evalAtPath o vals (l :: (l1 ++ l2)) pos e (v.coord :: (path ++ x))))
        (((List.range l.n).filter sp).map ev) (by
          intro v hv
          rw [List.mem_map] at hv
          obtain ⟨c, hc, rfl⟩ := hv
          rw [List.mem_filter, List.mem_range] at hc
          obtain ⟨e', h1, h2, h3, h4⟩ := hsupp c hc.1 hc.2
          obtain ⟨t, ht1, ht2, ht3⟩ := ih l1 (nextPos l pos (ev c)) e' hl h2 h3
          refine ⟨t, ?_, ht2, ?_⟩
          · rw [h1]; simp only; rw [ht1]; rfl
          · intro path hp
            rw [ht3 path hp]
            apply sumBox_congr
            intro x _
            rw [h4, hcoord])
      have hkeys : ys.map Prod.fst = (List.range l.n).filter sp := by
        rw [hy2, List.map_map]
        have : (fun v : Event V => v.coord) ∘ ev = id := by funext c; exact hcoord c
        rw [this, List.map_id]
      have hsorted : (ys.map Prod.fst).Pairwise (· < ·) := by
        rw [hkeys]; exact List.pairwise_lt_range.filter _
      refine ⟨(ys : List (Nat × Tree V rl.length)), ?_, ?_, ?_⟩
      · show (if segsOk l pos e.leaves then _ else none) = _
        rw [if_pos hsegs]
        simp only
        rw [hrun]
        exact congrArg (Option.map _) hy1
      · refine ⟨hsorted, ?_, ?_⟩
        · intro y hy
          have : y.1 ∈ ys.map Prod.fst := List.mem_map.2 ⟨y, hy, rfl⟩
          rw [hkeys, List.mem_filter, List.mem_range] at this
          rw [hn]; exact this.1
        · intro y hy
          obtain ⟨v, _, _, hv, _⟩ := hy3 y hy
          exact hv
      · intro path hp
        simp only [List.map_cons, box, List.mem_flatMap, List.mem_range, List.mem_map] at hp
        obtain ⟨c, hc, cs, hcs, rfl⟩ := hp
        refine (treeVal_cons o.zero rl.length ys c cs).trans ?_
        show (ys.lookup c).elim o.zero (fun t' => treeVal o.zero rl.length t' cs) = _
        cases hsc : sp c with
        | true =>
          have hmem : c ∈ ys.map Prod.fst := by rw [hkeys, List.mem_filter, List.mem_range]; exact ⟨hc, hsc⟩
          obtain ⟨y, hy, rfl⟩ := List.mem_map.1 hmem
          rw [Assembly.lookup_mem hsorted hy]
          simp only [Option.elim]
          obtain ⟨v, _, hv1, _, hv2⟩ := hy3 y hy
          rw [hv2 cs hcs, ← hv1]
          rfl
        | false =>
          have hmem : c ∉ ys.map Prod.fst := by
            rw [hkeys, List.mem_filter]
            intro h; rw [hsc] at h; cases h.2
          rw [Assembly.lookup_not_mem hmem]
          simp only [Option.elim]
          rw [← sumBox_zero ho (l2.map Loop.n)]
          apply sumBox_congr
          intro x _
          exact (hnsupp c hc hsc (cs ++ x)).symm

/-- No access is repeated. -/
theorem repeats_of_nodup (ops : List (Operand V)) : ∀ {e : Expr V}, e.leaves.Nodup → RepeatsAreFactors ops e := by
  intro e
  induction e with
  | acc k => intro _; trivial
  | lit v => intro _; trivial
  | un u a ih => intro h; exact ih h
  | bin b l r ihl ihr =>
    intro h
    simp only [leaves] at h
    rw [List.nodup_append] at h
    exact ⟨ihl h.1, ihr h.2.1, fun k h1 h2 => absurd rfl (h.2.2 k h1 k h2)⟩

theorem repeats_congr {ops ops' : List (Operand V)} (h : ops'.map Operand.vars = ops.map Operand.vars) :
    ∀ {e : Expr V}, RepeatsAreFactors ops e → RepeatsAreFactors ops' e := by
  intro e
  induction e with
  | acc k => intro _; trivial
  | lit v => intro _; trivial
  | un u a ih => intro h; exact ih h
  | bin b l r ihl ihr =>
    intro hr
    refine ⟨ihl hr.1, ihr hr.2.1, fun k h1 h2 ⟨a, ha, hv⟩ => hr.2.2 k h1 h2 ?_⟩
    have hk := congrArg (fun l => l[k]?) h
    simp only [List.getElem?_map, ha, Option.map_some] at hk
    cases ho : ops[k]? with
    | none => rw [ho] at hk; cases hk
    | some a' =>
      rw [ho] at hk
      simp only [Option.map_some, Option.some.injEq] at hk
      exact ⟨a', rfl, by rw [← hk]; exact hv⟩

theorem consistent_loops {size : Nat → Nat} {ops : List (Operand V)} {sts : List (List Lvl × List V)} {vs : List Nat}
    {e : Expr V} (h : RepeatsAreFactors ops e) (hp : ∀ a ∈ ops, a.perm.Perm (List.range a.vars.length)) :
    ∀ l ∈ loops size ops sts vs, Consistent (ctxOf l) e := by
  intro l hl
  apply sharedFactors_Consistent
  obtain ⟨v, _, rfl⟩ := List.mem_map.1 hl
  induction e with
  | acc k => trivial
  | lit v => trivial
  | un u a ih => exact ih h
  | bin b l r ihl ihr =>
    refine ⟨ihl h.1, ihr h.2.1, fun k hk hk' hK => h.2.2 k hk hk' ?_⟩
    unfold ctxOf at hK
    simp only at hK
    cases hop : ops[k]? with
    | none => rw [hop] at hK; exact absurd rfl hK
    | some a =>
      refine ⟨a, rfl, fun hv => ?_⟩
      rw [hop] at hK
      have hpe : a.perm = [] := by
        have := hp a (List.mem_of_getElem? hop)
        rw [hv] at this
        exact List.Perm.eq_nil this
      cases hst : sts[k]? with
      | none => rw [hst] at hK; exact absurd rfl hK
      | some st =>
        rw [hst] at hK
        simp only at hK
        have hnil : a.storageVars = [] := by simp [Operand.storageVars, hpe, permute]
        rw [hnil] at hK
        exact absurd rfl hK

end Verif.EndToEnd
