import Verif.Numpy.Lists

/-!
# Assignments with at most one variable to sum over
-/

namespace Verif.Numpy

theorem lists_one {α : Type} {l : List α} {x : α} (h : Lists l fun y => y = x) : l = [x] := by
  obtain ⟨h1, h2⟩ := h
  cases l with
  | nil => exact nomatch (h2 x).2 rfl
  | cons y l =>
    have hy : y = x := (h2 y).1 List.mem_cons_self
    subst hy
    congr 1
    cases l with
    | nil => rfl
    | cons z l =>
      have hz : z = y := (h2 z).1 (List.mem_cons_of_mem _ List.mem_cons_self)
      subst hz
      exact absurd List.mem_cons_self (List.nodup_cons.1 h1).1

theorem Lists.congr {α : Type} {l : List α} {P Q : α → Prop} (h : Lists l P) (hpq : ∀ x, P x ↔ Q x) : Lists l Q :=
  ⟨h.1, fun x => (h.2 x).trans (hpq x)⟩

/-- Assignments without a sum. -/
theorem terms_none {a : Assignment} (hc : assign a = some a) (hn : a.lhs.Nodup) (hl : a.lhs.length = a.shape.length)
    {r : List Nat} (hr : InBox a.shape r) {Q : List (List Nat)}
    (h1 : ∀ e : Env, a.lhs.map e = r → (a.operands.map fun o => o.vars.map e) = Q)
    (h2 : ∀ e : Env, a.lhs.map e = r → ∀ o ∈ a.operands, InBox o.shape (o.vars.map e)) : terms a r = [Q] := by
  refine lists_one ((terms_lists hc hn hr).congr fun cs => ⟨?_, ?_⟩)
  · rintro ⟨e, _, he, rfl⟩
    exact h1 e he
  · rintro rfl
    have he := map_bindEnv (c := r) hn (by rw [hl, hr.1])
    exact ⟨_, h2 _ he, he, (h1 _ he).symm⟩

/-- Assignments with one variable to sum over. -/
theorem terms_single {a : Assignment} {red k : Nat} (hc : assign a = some a) (hn : (a.lhs ++ [red]).Nodup)
    (hl : a.lhs.length = a.shape.length) {r : List Nat} (hr : InBox a.shape r) {Q : Nat → List (List Nat)}
    (h1 : ∀ e : Env, a.lhs.map e = r → (a.operands.map fun o => o.vars.map e) = Q (e red))
    (h2 : ∀ e : Env, a.lhs.map e = r → ((∀ o ∈ a.operands, InBox o.shape (o.vars.map e)) ↔ e red < k)) :
    Lists (terms a r) fun cs => ∃ l, l < k ∧ cs = Q l := by
  refine (terms_lists hc (List.nodup_append.1 hn).1 hr).congr fun cs => ⟨?_, ?_⟩
  · rintro ⟨e, h, he, rfl⟩
    exact ⟨e red, (h2 e he).1 h, h1 e he⟩
  · rintro ⟨l, hlk, rfl⟩
    have hm := map_bindEnv (vs := a.lhs ++ [red]) (c := r ++ [l]) hn (by
      rw [List.length_append, List.length_append, hl, hr.1]
      rfl)
    rw [List.map_append] at hm
    obtain ⟨he, hx⟩ := List.append_inj hm (by rw [List.length_map, hl, hr.1])
    have hx : bindEnv (a.lhs ++ [red]) (r ++ [l]) red = l := (List.cons.inj hx).1
    refine ⟨_, (h2 _ he).2 (by rw [hx]; exact hlk), he, ?_⟩
    rw [h1 _ he, hx]

/-! ### Element-wise functions -/

theorem binary_eq (c : Nat) {s1 s2 : List Nat} (h : Fits s1 s2) :
    let vars := fresh c (longer s1 s2).length
    let a : Assignment := ⟨longer s1 s2, vars, [⟨s1, last s1.length vars⟩, ⟨s2, last s2.length vars⟩]⟩
    binary c s1 s2 = some a ∧ assign a = some a := by
  intro vars a
  have hlen : vars.length = (longer s1 s2).length := fresh_length _ _
  have hm : vars.map (bindEnv vars (longer s1 s2)) = longer s1 s2 := map_bindEnv (fresh_nodup _ _) hlen
  have hc : assign a = some a := by
    refine consistent_of (bindEnv vars (longer s1 s2)) hm ?_
    intro o ho
    simp only [a, List.mem_cons, List.not_mem_nil, or_false] at ho
    rcases ho with rfl | rfl
    · show (last s1.length vars).map _ = s1
      rw [last_map, hm, last_of_suffix h.left]
    · show (last s2.length vars).map _ = s2
      rw [last_map, hm, last_of_suffix h.right]
  refine ⟨?_, hc⟩
  have ho : outShape s1 s2 = some (longer s1 s2) := by
    unfold outShape longer
    rw [isBroadcastable_iff.2 h, if_pos rfl]
  unfold binary
  rw [ho, Option.bind_some]
  have h1 : s1.length ≤ vars.length := by rw [hlen]; exact h.left.length_le
  have h2 : s2.length ≤ vars.length := by rw [hlen]; exact h.right.length_le
  show (if longer s1 s2 ≠ [] then assign ⟨longer s1 s2, vars, [⟨s1, sliceFrom vars (vars.length - s1.length)⟩,
    ⟨s2, sliceFrom vars (vars.length - s2.length)⟩]⟩ else _) = _
  split
  · rw [sliceFrom_sub h1, sliceFrom_sub h2]
    exact hc
  · rename_i hnil
    have hnil : longer s1 s2 = [] := Classical.byContradiction fun h => hnil h
    have hv : vars = [] := List.eq_nil_of_length_eq_zero (by rw [hlen, hnil]; rfl)
    have e1 : last s1.length vars = [] := by rw [hv]; exact List.drop_nil
    have e2 : last s2.length vars = [] := by rw [hv]; exact List.drop_nil
    have : a = ⟨[], [], [⟨s1, []⟩, ⟨s2, []⟩]⟩ := by
      show (⟨longer s1 s2, vars, [⟨s1, last s1.length vars⟩, ⟨s2, last s2.length vars⟩]⟩ : Assignment) = _
      rw [e1, e2, hnil, hv]
    rw [← this]
    exact hc

theorem binary_terms (c : Nat) {s1 s2 : List Nat} (h : Fits s1 s2) : ∃ a, binary c s1 s2 = some a ∧
    a.shape = longer s1 s2 ∧
    ∀ r, InBox (longer s1 s2) r → terms a r = [[last s1.length r, last s2.length r]] := by
  obtain ⟨h1, h2⟩ := binary_eq c h
  refine ⟨_, h1, rfl, fun r hr => terms_none h2 (fresh_nodup _ _) (fresh_length _ _) hr ?_ ?_⟩
  · intro e he
    show [(last _ _).map e, (last _ _).map e] = _
    rw [last_map, last_map]
    exact congrArg (fun x => [last s1.length x, last s2.length x]) he
  · intro e he o ho
    have he : (fresh c (longer s1 s2).length).map e = r := he
    simp only [List.mem_cons, List.not_mem_nil, or_false] at ho
    rcases ho with rfl | rfl
    · show InBox s1 ((last _ _).map e)
      rw [last_map, he]
      exact inBox_last h.left hr
    · show InBox s2 ((last _ _).map e)
      rw [last_map, he]
      exact inBox_last h.right hr

theorem binary_fits {c : Nat} {s1 s2 : List Nat} {a : Assignment} (h : binary c s1 s2 = some a) : Fits s1 s2 := by
  unfold binary outShape at h
  split at h
  · rename_i hb
    exact isBroadcastable_iff.1 hb
  · exact nomatch h

theorem unary_eq (c : Nat) (s : List Nat) :
    unary c s = some ⟨s, fresh c s.length, [⟨s, fresh c s.length⟩]⟩ ∧
      assign ⟨s, fresh c s.length, [⟨s, fresh c s.length⟩]⟩ = some ⟨s, fresh c s.length, [⟨s, fresh c s.length⟩]⟩ := by
  have hm := map_bindEnv (vs := fresh c s.length) (c := s) (fresh_nodup _ _) (fresh_length _ _)
  have hc : assign ⟨s, fresh c s.length, [⟨s, fresh c s.length⟩]⟩ =
      some ⟨s, fresh c s.length, [⟨s, fresh c s.length⟩]⟩ := by
    refine consistent_of (bindEnv (fresh c s.length) s) hm ?_
    intro o ho
    rw [List.mem_singleton.1 ho]
    exact hm
  refine ⟨?_, hc⟩
  unfold unary
  split
  · exact hc
  · rename_i hs
    have hs : s = [] := Classical.byContradiction fun h => hs h
    subst hs
    exact hc

theorem unary_terms (c : Nat) (s : List Nat) : ∃ a, unary c s = some a ∧ a.shape = s ∧
    ∀ r, InBox s r → terms a r = [[r]] := by
  obtain ⟨h1, h2⟩ := unary_eq c s
  refine ⟨_, h1, rfl, fun r hr => terms_none h2 (fresh_nodup _ _) (fresh_length _ _) hr ?_ ?_⟩
  · intro e he
    exact congrArg (fun x => [x]) he
  · intro e he o ho
    rw [List.mem_singleton.1 ho]
    show InBox s (List.map e _)
    have he : (fresh c s.length).map e = r := he
    rw [he]
    exact hr

/-! ### Sums -/

theorem sum_eq (c : Nat) (s : List Nat) (axes : List Nat) (hlt : ∀ i ∈ axes, i < s.length) :
    let a : Assignment := ⟨without axes 0 s, without axes 0 (fresh c s.length), [⟨s, fresh c s.length⟩]⟩
    sum c s (.list (axes.map fun i : Nat => (i : Int))) = some a ∧ assign a = some a := by
  intro a
  have hm := map_bindEnv (vs := fresh c s.length) (c := s) (fresh_nodup _ _) (fresh_length _ _)
  have hc : assign a = some a := by
    refine consistent_of (bindEnv (fresh c s.length) s) ?_ ?_
    · show (without axes 0 (fresh c s.length)).map _ = without axes 0 s
      rw [map_without, hm]
    · intro o ho
      rw [List.mem_singleton.1 ho]
      exact hm
  refine ⟨?_, hc⟩
  have h1 : kept s (.list (axes.map fun i : Nat => (i : Int))) = some (without axes 0 s) := removeAt_eq hlt
  have h2 : kept (fresh c s.length) (.list (axes.map fun i : Nat => (i : Int))) =
      some (without axes 0 (fresh c s.length)) := removeAt_eq (by rw [fresh_length]; exact hlt)
  unfold sum
  rw [h1, Option.bind_some]
  show (kept (fresh c s.length) _).bind _ = _
  rw [h2, Option.bind_some]
  exact hc

theorem reduce_terms {s vars lhs shape : List Nat} {axes : List Nat} (hv : vars.Nodup) (hl : vars.length = s.length)
    (hlhs : lhs = without axes 0 vars) {r : List Nat}
    (hc : assign ⟨shape, lhs, [⟨s, vars⟩]⟩ = some ⟨shape, lhs, [⟨s, vars⟩]⟩) (hr : InBox shape r) :
    Lists (terms ⟨shape, lhs, [⟨s, vars⟩]⟩ r) fun cs => ∃ x, cs = [x] ∧ InBox s x ∧ without axes 0 x = r := by
  have hn : lhs.Nodup := by
    rw [hlhs]
    exact (without_sublist axes 0 vars).nodup hv
  refine (terms_lists hc hn hr).congr fun cs => ⟨?_, ?_⟩
  · rintro ⟨e, h, he, rfl⟩
    refine ⟨vars.map e, rfl, h _ List.mem_cons_self, ?_⟩
    rw [← map_without, ← hlhs]
    exact he
  · rintro ⟨x, rfl, hx, hxr⟩
    have hm := map_bindEnv (vs := vars) (c := x) hv (by rw [hl, hx.1])
    refine ⟨bindEnv vars x, ?_, ?_, ?_⟩
    · intro o ho
      rw [List.mem_singleton.1 ho]
      show InBox s (vars.map _)
      rw [hm]
      exact hx
    · show lhs.map _ = r
      rw [hlhs, map_without, hm, hxr]
    · show [x] = [vars.map _]
      rw [hm]

theorem without_all {α : Type} {axes : List Nat} : ∀ (k : Nat) (l : List α), (∀ i, k ≤ i → i < k + l.length → i ∈ axes) →
    without axes k l = []
  | _, [], _ => rfl
  | k, x :: l, h => by
    unfold without
    rw [if_pos (h k (Nat.le_refl _) (by rw [List.length_cons]; omega))]
    refine without_all (k + 1) l fun i h1 h2 => h i (by omega) ?_
    rw [List.length_cons]
    omega

theorem sum_none_eq (c : Nat) (s : List Nat) :
    sum c s .none = some ⟨[], [], [⟨s, fresh c s.length⟩]⟩ ∧
      assign ⟨[], [], [⟨s, fresh c s.length⟩]⟩ = some ⟨[], [], [⟨s, fresh c s.length⟩]⟩ := by
  have hm := map_bindEnv (vs := fresh c s.length) (c := s) (fresh_nodup _ _) (fresh_length _ _)
  have hc : assign ⟨[], [], [⟨s, fresh c s.length⟩]⟩ = some ⟨[], [], [⟨s, fresh c s.length⟩]⟩ := by
    refine consistent_of (bindEnv (fresh c s.length) s) rfl ?_
    intro o ho
    rw [List.mem_singleton.1 ho]
    exact hm
  exact ⟨hc, hc⟩

/-! ### Matrix products -/

theorem split_two {α : Type} {l : List α} (h : 2 ≤ l.length) : ∃ b x y, l = b ++ [x, y] := by
  refine ⟨l.take (l.length - 2), l[l.length - 2]'(by omega), l[l.length - 1]'(by omega), ?_⟩
  conv => lhs; rw [← List.take_append_drop (l.length - 2) l]
  congr 1
  rw [List.drop_eq_getElem_cons (by omega), List.drop_eq_getElem_cons (by omega), List.drop_eq_nil_of_le (by omega)]
  have : l.length - 2 + 1 = l.length - 1 := by omega
  simp only [this]

theorem split_one {α : Type} {l : List α} (h : 1 ≤ l.length) : ∃ b x, l = b ++ [x] := by
  refine ⟨l.take (l.length - 1), l[l.length - 1]'(by omega), ?_⟩
  conv => lhs; rw [← List.take_append_drop (l.length - 1) l]
  congr 1
  rw [List.drop_eq_getElem_cons (by omega), List.drop_eq_nil_of_le (by omega)]

theorem fresh_two (c n : Nat) : fresh c (n + 2) = fresh c n ++ [c + n, c + n + 1] := by
  unfold fresh
  rw [← List.range'_append_1 (s := c) (m := n) (n := 2)]
  rfl

theorem matmul_eq (c : Nat) {b1 b2 : List Nat} {m k n : Nat} (h : Fits b1 b2) :
    let N := (longer b1 b2).length
    let L := fresh (c + 1) N
    let i := c + 1 + N
    let a : Assignment := ⟨longer b1 b2 ++ [m, n], L ++ [i, i + 1],
      [⟨b1 ++ [m, k], last b1.length L ++ [i, c]⟩, ⟨b2 ++ [k, n], last b2.length L ++ [c, i + 1]⟩]⟩
    matmul c (b1 ++ [m, k]) (b2 ++ [k, n]) = some a ∧ assign a = some a ∧ ((L ++ [i, i + 1]) ++ [c]).Nodup := by
  intro N L i a
  have hL : L.length = N := fresh_length _ _
  have hN : N = max b1.length b2.length := length_longer _ _
  have hnd : ((L ++ [i, i + 1]) ++ [c]).Nodup := by
    have : L ++ [i, i + 1] = fresh (c + 1) (N + 2) := (fresh_two _ _).symm
    rw [this]
    refine List.nodup_append.2 ⟨fresh_nodup _ _, List.nodup_cons.2 ⟨(fun h => nomatch h), List.nodup_nil⟩, ?_⟩
    intro x hx y hy hxy
    rw [List.mem_singleton.1 hy] at hxy
    have h' := mem_fresh.1 hx
    have hxy : @Eq Nat x c := hxy
    omega
  have hm := map_bindEnv (vs := (L ++ [i, i + 1]) ++ [c]) (c := (longer b1 b2 ++ [m, n]) ++ [k]) hnd (by
    simp only [List.length_append, List.length_cons, List.length_nil, hL, N])
  let f := bindEnv ((L ++ [i, i + 1]) ++ [c]) ((longer b1 b2 ++ [m, n]) ++ [k])
  have hm : ((L ++ [i, i + 1]) ++ [c]).map f = (longer b1 b2 ++ [m, n]) ++ [k] := hm
  rw [List.map_append] at hm
  obtain ⟨hm1, hm2⟩ := List.append_inj hm (by
    simp only [List.length_map, List.length_append, List.length_cons, List.length_nil, hL, N])
  have hk : f c = k := (List.cons.inj hm2).1
  have hm1' := hm1
  rw [List.map_append] at hm1'
  obtain ⟨hb, hij⟩ := List.append_inj hm1' (by rw [List.length_map, hL])
  have hi : f i = m := (List.cons.inj hij).1
  have hj : f (i + 1) = n := (List.cons.inj (List.cons.inj hij).2).1
  have hc : assign a = some a := by
    refine consistent_of f hm1 ?_
    intro o ho
    simp only [a, List.mem_cons, List.not_mem_nil, or_false] at ho
    rcases ho with rfl | rfl
    · show (last b1.length L ++ [i, c]).map f = b1 ++ [m, k]
      rw [List.map_append, last_map, hb, last_of_suffix h.left]
      show b1 ++ [f i, f c] = _
      rw [hi, hk]
    · show (last b2.length L ++ [c, i + 1]).map f = b2 ++ [k, n]
      rw [List.map_append, last_map, hb, last_of_suffix h.right]
      show b2 ++ [f c, f (i + 1)] = _
      rw [hj, hk]
  refine ⟨?_, hc, hnd⟩
  have hl1 : (b1 ++ [m, k]).length = b1.length + 2 := List.length_append
  have hl2 : (b2 ++ [k, n]).length = b2.length + 2 := List.length_append
  have hout : matrixOutShape (b1 ++ [m, k]) (b2 ++ [k, n]) = some (longer b1 b2 ++ [m, n]) := by
    unfold matrixOutShape
    rw [hl1, hl2, if_neg (by omega), item_last_two, item_second, if_neg (fun h => h rfl), sliceTo_two, sliceTo_two,
      isBroadcastable_iff.2 h, item_second, item_last_two]
    show some ((if b2.length + 2 ≤ b1.length + 2 then b1 else b2) ++ [m, n]) = _
    unfold longer
    simp only [Nat.add_le_add_iff_right]
  unfold matmul
  rw [hout, Option.bind_some]
  have hlead : fresh (c + 1) (max (b1 ++ [m, k]).length (b2 ++ [k, n]).length) = L ++ [i, i + 1] := by
    rw [hl1, hl2, show max (b1.length + 2) (b2.length + 2) = N + 2 by omega]
    exact fresh_two _ _
  have e1 : setItem (sliceFrom (L ++ [i, i + 1]) (-((b1 ++ [m, k]).length : Int))) (-1) c =
      last b1.length L ++ [i, c] := by
    rw [hl1, sliceFrom_neg (by omega)]
    rw [show b1.length + 2 = b1.length + [i, i + 1].length by rfl, last_append (by omega), setItem_last]
  have e2 : setItem (sliceFrom (L ++ [i, i + 1]) (-((b2 ++ [k, n]).length : Int))) (-2) c =
      last b2.length L ++ [c, i + 1] := by
    rw [hl2, sliceFrom_neg (by omega)]
    rw [show b2.length + 2 = b2.length + [i, i + 1].length by rfl, last_append (by omega), setItem_second]
  show assign ⟨_, fresh (c + 1) (max (b1 ++ [m, k]).length (b2 ++ [k, n]).length), _⟩ = _
  simp only [hlead, e1, e2]
  exact hc

theorem inBox_two {s x : List Nat} {m k i l : Nat} (hl : x.length = s.length) :
    InBox (s ++ [m, k]) (x ++ [i, l]) ↔ InBox s x ∧ i < m ∧ l < k := by
  rw [inBox_append hl, inBox_cons, inBox_one]

theorem map_two {L : List Var} {i j : Var} {e : Env} {b : List Nat} {x y : Nat} (hl : L.length = b.length)
    (h : (L ++ [i, j]).map e = b ++ [x, y]) : L.map e = b ∧ e i = x ∧ e j = y := by
  rw [List.map_append] at h
  obtain ⟨h1, h2⟩ := List.append_inj h (by rw [List.length_map, hl])
  exact ⟨h1, (List.cons.inj h2).1, (List.cons.inj (List.cons.inj h2).2).1⟩

theorem matmul_terms (c : Nat) {b1 b2 : List Nat} {m k n : Nat} (h : Fits b1 b2) :
    ∃ a, matmul c (b1 ++ [m, k]) (b2 ++ [k, n]) = some a ∧ a.shape = longer b1 b2 ++ [m, n] ∧
      ∀ b i j, InBox (longer b1 b2) b → i < m → j < n → Lists (terms a (b ++ [i, j])) fun cs =>
        ∃ l, l < k ∧ cs = [last b1.length b ++ [i, l], last b2.length b ++ [l, j]] := by
  obtain ⟨h1, h2, hnd⟩ := matmul_eq c (m := m) (k := k) (n := n) h
  refine ⟨_, h1, rfl, fun b i j hb hi hj => ?_⟩
  have hL : (fresh (c + 1) (longer b1 b2).length).length = b.length := by rw [fresh_length, hb.1]
  refine terms_single (red := c) (Q := fun l => [last b1.length b ++ [i, l], last b2.length b ++ [l, j]]) h2 hnd ?_
    ((inBox_two hb.1).2 ⟨hb, hi, hj⟩) ?_ ?_
  · show (fresh (c + 1) (longer b1 b2).length ++ [_, _]).length = _
    rw [List.length_append, List.length_append, fresh_length]
    rfl
  · intro e he
    obtain ⟨hb', hi', hj'⟩ := map_two hL he
    show [(last _ _ ++ [_, _]).map e, (last _ _ ++ [_, _]).map e] = _
    rw [List.map_append, List.map_append, last_map, last_map, hb']
    show [_ ++ [e _, e _], _ ++ [e _, e _]] = _
    rw [hi', hj']
  · intro e he
    obtain ⟨hb', hi', hj'⟩ := map_two hL he
    have l1 : (last b1.length b).length = b1.length := length_last (by rw [hb.1]; exact h.left.length_le)
    have l2 : (last b2.length b).length = b2.length := length_last (by rw [hb.1]; exact h.right.length_le)
    constructor
    · intro ho
      have := ho _ List.mem_cons_self
      replace this : InBox (b1 ++ [m, k]) ((last b1.length (fresh (c + 1) (longer b1 b2).length) ++ [_, c]).map e) := this
      rw [List.map_append, last_map, hb'] at this
      exact ((inBox_two l1).1 this).2.2
    · intro hk o ho
      simp only [List.mem_cons, List.not_mem_nil, or_false] at ho
      rcases ho with rfl | rfl
      · show InBox (b1 ++ [m, k]) ((last _ _ ++ [_, _]).map e)
        rw [List.map_append, last_map, hb']
        exact (inBox_two l1).2 ⟨inBox_last h.left hb, by rw [hi']; exact hi, hk⟩
      · show InBox (b2 ++ [k, n]) ((last _ _ ++ [_, _]).map e)
        rw [List.map_append, last_map, hb']
        exact (inBox_two l2).2 ⟨inBox_last h.right hb, hk, by rw [hj']; exact hj⟩

theorem matmul_accepted {c : Nat} {s1 s2 : List Nat} {a : Assignment} (h : matmul c s1 s2 = some a) :
    ∃ b1 b2 m k n, s1 = b1 ++ [m, k] ∧ s2 = b2 ++ [k, n] ∧ Fits b1 b2 := by
  unfold matmul at h
  obtain ⟨out, h, _⟩ := Option.bind_eq_some_iff.1 h
  unfold matrixOutShape at h
  split at h
  · exact nomatch h
  · rename_i hl
    obtain ⟨b1, m, k, rfl⟩ := split_two (l := s1) (by omega)
    obtain ⟨b2, k', n, rfl⟩ := split_two (l := s2) (by omega)
    rw [item_last_two, item_second, sliceTo_two, sliceTo_two] at h
    split at h
    · exact nomatch h
    · rename_i hk
      have hk : k = k' := Option.some.inj (Classical.byContradiction fun h => hk h)
      subst hk
      split at h
      · exact nomatch h
      · rename_i hb
        refine ⟨b1, b2, m, k, n, rfl, rfl, isBroadcastable_iff.1 ?_⟩
        cases hc : isBroadcastable b1 b2 with
        | true => rfl
        | false => exact absurd (by rw [hc]; rfl) hb

/-! ### Inner products -/

theorem fresh_append (c m n : Nat) : fresh c (m + n) = fresh c m ++ fresh (c + m) n := by
  unfold fresh
  rw [List.range'_append_1]

theorem append_two {V1 V2 : List Var} {e : Env} {x y : List Nat} (hl : V1.length = x.length)
    (h : (V1 ++ V2).map e = x ++ y) : V1.map e = x ∧ V2.map e = y := by
  rw [List.map_append] at h
  exact List.append_inj h (by rw [List.length_map, hl])

theorem inner_eq (c : Nat) {a1 a2 : List Nat} {k : Nat} :
    let V1 := fresh (c + 1) a1.length
    let V2 := fresh (c + 1 + a1.length) a2.length
    let a : Assignment := ⟨a1 ++ a2, V1 ++ V2, [⟨a1 ++ [k], V1 ++ [c]⟩, ⟨a2 ++ [k], V2 ++ [c]⟩]⟩
    inner c (a1 ++ [k]) (a2 ++ [k]) = some a ∧ assign a = some a ∧ ((V1 ++ V2) ++ [c]).Nodup := by
  intro V1 V2 a
  have hnd : ((V1 ++ V2) ++ [c]).Nodup := by
    have : V1 ++ V2 = fresh (c + 1) (a1.length + a2.length) := (fresh_append _ _ _).symm
    rw [this]
    refine List.nodup_append.2 ⟨fresh_nodup _ _, List.nodup_cons.2 ⟨(fun h => nomatch h), List.nodup_nil⟩, ?_⟩
    intro x hx y hy hxy
    rw [List.mem_singleton.1 hy] at hxy
    have h' := mem_fresh.1 hx
    have hxy : @Eq Nat x c := hxy
    omega
  have h1 : V1.length = a1.length := fresh_length _ _
  have h2 : V2.length = a2.length := fresh_length _ _
  let f := bindEnv ((V1 ++ V2) ++ [c]) ((a1 ++ a2) ++ [k])
  have hm : ((V1 ++ V2) ++ [c]).map f = (a1 ++ a2) ++ [k] := map_bindEnv hnd (by
    simp only [List.length_append, h1, h2]
    rfl)
  obtain ⟨hm1, hm2⟩ := append_two (by simp only [List.length_append, h1, h2]) hm
  have hk : f c = k := (List.cons.inj hm2).1
  obtain ⟨hx, hy⟩ := append_two h1 hm1
  have hc : assign a = some a := by
    refine consistent_of f hm1 ?_
    intro o ho
    simp only [a, List.mem_cons, List.not_mem_nil, or_false] at ho
    rcases ho with rfl | rfl
    · show (V1 ++ [c]).map f = a1 ++ [k]
      rw [List.map_append, hx]
      show a1 ++ [f c] = _
      rw [hk]
    · show (V2 ++ [c]).map f = a2 ++ [k]
      rw [List.map_append, hy]
      show a2 ++ [f c] = _
      rw [hk]
  refine ⟨?_, hc, hnd⟩
  unfold inner
  rw [if_neg (by simp), item_last, item_last, if_neg (fun h => h rfl), sliceTo_one, sliceTo_one]
  exact hc

theorem inBox_snoc {s x : List Nat} {k l : Nat} (hl : x.length = s.length) :
    InBox (s ++ [k]) (x ++ [l]) ↔ InBox s x ∧ l < k := by
  rw [inBox_append hl, inBox_one]

theorem inner_terms (c : Nat) {a1 a2 : List Nat} {k : Nat} :
    ∃ a, inner c (a1 ++ [k]) (a2 ++ [k]) = some a ∧ a.shape = a1 ++ a2 ∧
      ∀ x y, InBox a1 x → InBox a2 y → Lists (terms a (x ++ y)) fun cs =>
        ∃ l, l < k ∧ cs = [x ++ [l], y ++ [l]] := by
  obtain ⟨h1, h2, hnd⟩ := inner_eq c (a1 := a1) (a2 := a2) (k := k)
  refine ⟨_, h1, rfl, fun x y hx hy => ?_⟩
  have hl : (fresh (c + 1) a1.length).length = x.length := by rw [fresh_length, hx.1]
  refine terms_single (red := c) (Q := fun l => [x ++ [l], y ++ [l]]) h2 hnd ?_
    ((inBox_append hx.1).2 ⟨hx, hy⟩) ?_ ?_
  · show (fresh _ _ ++ fresh _ _).length = _
    rw [List.length_append, List.length_append, fresh_length, fresh_length]
  · intro e he
    obtain ⟨hx', hy'⟩ := append_two hl he
    show [(fresh _ _ ++ [_]).map e, (fresh _ _ ++ [_]).map e] = _
    rw [List.map_append, List.map_append, hx', hy']
    rfl
  · intro e he
    obtain ⟨hx', hy'⟩ := append_two hl he
    constructor
    · intro ho
      have := ho _ List.mem_cons_self
      replace this : InBox (a1 ++ [k]) ((fresh (c + 1) a1.length ++ [c]).map e) := this
      rw [List.map_append, hx'] at this
      exact ((inBox_snoc hx.1).1 this).2
    · intro hk o ho
      simp only [List.mem_cons, List.not_mem_nil, or_false] at ho
      rcases ho with rfl | rfl
      · show InBox (a1 ++ [k]) ((fresh _ _ ++ [_]).map e)
        rw [List.map_append, hx']
        exact (inBox_snoc hx.1).2 ⟨hx, hk⟩
      · show InBox (a2 ++ [k]) ((fresh _ _ ++ [_]).map e)
        rw [List.map_append, hy']
        exact (inBox_snoc hy.1).2 ⟨hy, hk⟩

theorem inner_accepted {c : Nat} {s1 s2 : List Nat} {a : Assignment} (h : inner c s1 s2 = some a) :
    s1 = [] ∨ s2 = [] ∨ ∃ a1 a2 k, s1 = a1 ++ [k] ∧ s2 = a2 ++ [k] := by
  unfold inner at h
  split at h
  · rename_i h0
    rcases h0 with h0 | h0
    · exact .inl (List.eq_nil_of_length_eq_zero h0)
    · exact .inr (.inl (List.eq_nil_of_length_eq_zero h0))
  · rename_i h0
    obtain ⟨a1, k, rfl⟩ := split_one (l := s1) (by omega)
    obtain ⟨a2, k', rfl⟩ := split_one (l := s2) (by omega)
    rw [item_last, item_last] at h
    split at h
    · exact nomatch h
    · rename_i hk
      have hk : k = k' := Option.some.inj (Classical.byContradiction fun h => hk h)
      subst hk
      exact .inr (.inr ⟨a1, a2, k, rfl, rfl⟩)

/-! ### Dot products -/

theorem fresh_one (c n : Nat) : fresh c (n + 1) = fresh c n ++ [c + n] := fresh_append c n 1

theorem dot_eq (c : Nat) {a1 a2 : List Nat} {k n : Nat} :
    let V1 := fresh c a1.length
    let V2 := fresh (c + a1.length) a2.length
    let j := c + a1.length + a2.length
    let a : Assignment := ⟨a1 ++ (a2 ++ [n]), V1 ++ (V2 ++ [j]),
      [⟨a1 ++ [k], V1 ++ [j + 1]⟩, ⟨a2 ++ [k, n], V2 ++ [j + 1, j]⟩]⟩
    dot c (a1 ++ [k]) (a2 ++ [k, n]) = some a ∧ assign a = some a ∧ ((V1 ++ (V2 ++ [j])) ++ [j + 1]).Nodup := by
  intro V1 V2 j a
  have hV : V2 ++ [j] = fresh (c + a1.length) (a2.length + 1) := (fresh_one _ _).symm
  have hnd : ((V1 ++ (V2 ++ [j])) ++ [j + 1]).Nodup := by
    have : (V1 ++ (V2 ++ [j])) ++ [j + 1] = fresh c (a1.length + (a2.length + 1) + 1) := by
      rw [hV, fresh_append c (a1.length + (a2.length + 1)) 1, fresh_append c a1.length]
      congr 1
      show [j + 1] = [c + (a1.length + (a2.length + 1))]
      congr 1
      show c + a1.length + a2.length + 1 = _
      omega
    rw [this]
    exact fresh_nodup _ _
  have h1 : V1.length = a1.length := fresh_length _ _
  have h2 : V2.length = a2.length := fresh_length _ _
  let f := bindEnv ((V1 ++ (V2 ++ [j])) ++ [j + 1]) ((a1 ++ (a2 ++ [n])) ++ [k])
  have hm : ((V1 ++ (V2 ++ [j])) ++ [j + 1]).map f = (a1 ++ (a2 ++ [n])) ++ [k] := map_bindEnv hnd (by
    simp only [List.length_append, List.length_cons, List.length_nil, h1, h2])
  obtain ⟨hm1, hm2⟩ := append_two (by simp only [List.length_append, List.length_cons, List.length_nil, h1, h2]) hm
  have hk : f (j + 1) = k := (List.cons.inj hm2).1
  obtain ⟨hx, hy⟩ := append_two h1 hm1
  obtain ⟨hy, hj⟩ := append_two h2 hy
  have hj : f j = n := (List.cons.inj hj).1
  have hc : assign a = some a := by
    refine consistent_of f hm1 ?_
    intro o ho
    simp only [a, List.mem_cons, List.not_mem_nil, or_false] at ho
    rcases ho with rfl | rfl
    · show (V1 ++ [j + 1]).map f = a1 ++ [k]
      rw [List.map_append, hx]
      show a1 ++ [f (j + 1)] = _
      rw [hk]
    · show (V2 ++ [j + 1, j]).map f = a2 ++ [k, n]
      rw [List.map_append, hy]
      show a2 ++ [f (j + 1), f j] = _
      rw [hk, hj]
  refine ⟨?_, hc, hnd⟩
  have hl1 : (a1 ++ [k]).length - 1 = a1.length := by simp
  have hl2 : (a2 ++ [k, n]).length - 1 = a2.length + 1 := by simp
  have hout : dotOutShape (a1 ++ [k]) (a2 ++ [k, n]) = some (a1 ++ (a2 ++ [n])) := by
    unfold dotOutShape
    rw [item_last, item_second, if_neg (fun h => h rfl), sliceTo_one, sliceTo_two]
    have : sliceFrom (a2 ++ [k, n]) (-1) = [n] := by
      rw [show (-1 : Int) = -((1 : Nat) : Int) by rfl, sliceFrom_neg (by omega)]
      unfold last
      rw [List.length_append, show a2.length + [k, n].length - 1 = a2.length + 1 by rfl, ← List.drop_drop]
      simp
    rw [this, List.append_assoc]
  unfold dot
  rw [if_neg (by simp), hout, Option.bind_some]
  show assign ⟨_, fresh c ((a1 ++ [k]).length - 1) ++ fresh (c + ((a1 ++ [k]).length - 1)) ((a2 ++ [k, n]).length - 1),
    [⟨_, fresh c ((a1 ++ [k]).length - 1) ++ [c + ((a1 ++ [k]).length - 1) + ((a2 ++ [k, n]).length - 1)]⟩,
     ⟨_, sliceTo (fresh (c + ((a1 ++ [k]).length - 1)) ((a2 ++ [k, n]).length - 1)) (-1) ++
       [c + ((a1 ++ [k]).length - 1) + ((a2 ++ [k, n]).length - 1)] ++
       sliceFrom (fresh (c + ((a1 ++ [k]).length - 1)) ((a2 ++ [k, n]).length - 1)) (-1)⟩]⟩ = _
  rw [hl1, hl2, ← hV, sliceTo_one]
  have hs : sliceFrom (V2 ++ [j]) (-1) = [j] := by
    rw [show (-1 : Int) = -((1 : Nat) : Int) by rfl, sliceFrom_neg (by omega)]
    unfold last
    rw [List.length_append]
    simp
  rw [hs]
  have he : V2 ++ [c + a1.length + (a2.length + 1)] ++ [j] = V2 ++ [j + 1, j] := by
    rw [List.append_assoc]
    rfl
  rw [he]
  exact hc

theorem dot_terms (c : Nat) {a1 a2 : List Nat} {k n : Nat} :
    ∃ a, dot c (a1 ++ [k]) (a2 ++ [k, n]) = some a ∧ a.shape = a1 ++ (a2 ++ [n]) ∧
      ∀ x y j, InBox a1 x → InBox a2 y → j < n → Lists (terms a (x ++ (y ++ [j]))) fun cs =>
        ∃ l, l < k ∧ cs = [x ++ [l], y ++ [l, j]] := by
  obtain ⟨h1, h2, hnd⟩ := dot_eq c (a1 := a1) (a2 := a2) (k := k) (n := n)
  refine ⟨_, h1, rfl, fun x y j hx hy hj => ?_⟩
  have hl1 : (fresh c a1.length).length = x.length := by rw [fresh_length, hx.1]
  have hl2 : (fresh (c + a1.length) a2.length).length = y.length := by rw [fresh_length, hy.1]
  refine terms_single (red := c + a1.length + a2.length + 1) (Q := fun l => [x ++ [l], y ++ [l, j]]) h2 hnd ?_
    ((inBox_append hx.1).2 ⟨hx, (inBox_snoc hy.1).2 ⟨hy, hj⟩⟩) ?_ ?_
  · show (fresh _ _ ++ (fresh _ _ ++ [_])).length = (a1 ++ (a2 ++ [n])).length
    simp only [List.length_append, fresh_length, List.length_cons, List.length_nil]
  · intro e he
    obtain ⟨hx', hy'⟩ := append_two hl1 he
    obtain ⟨hy', hj'⟩ := append_two hl2 hy'
    have hj' : e (c + a1.length + a2.length) = j := (List.cons.inj hj').1
    show [(fresh _ _ ++ [_]).map e, (fresh _ _ ++ [_, _]).map e] = _
    rw [List.map_append, List.map_append, hx', hy']
    show [_, _ ++ [_, e _]] = _
    rw [hj']
    rfl
  · intro e he
    obtain ⟨hx', hy'⟩ := append_two hl1 he
    obtain ⟨hy', hj'⟩ := append_two hl2 hy'
    have hj' : e (c + a1.length + a2.length) = j := (List.cons.inj hj').1
    constructor
    · intro ho
      have := ho _ List.mem_cons_self
      replace this : InBox (a1 ++ [k]) ((fresh c a1.length ++ [c + a1.length + a2.length + 1]).map e) := this
      rw [List.map_append, hx'] at this
      exact ((inBox_snoc hx.1).1 this).2
    · intro hk o ho
      simp only [List.mem_cons, List.not_mem_nil, or_false] at ho
      rcases ho with rfl | rfl
      · show InBox (a1 ++ [k]) ((fresh _ _ ++ [_]).map e)
        rw [List.map_append, hx']
        exact (inBox_snoc hx.1).2 ⟨hx, hk⟩
      · show InBox (a2 ++ [k, n]) ((fresh _ _ ++ [_, _]).map e)
        rw [List.map_append, hy']
        exact (inBox_two hy.1).2 ⟨hy, hk, by rw [hj']; exact hj⟩

theorem dot_accepted {c : Nat} {s1 s2 : List Nat} {a : Assignment} (h1 : s1 ≠ []) (h2 : 2 ≤ s2.length)
    (h : dot c s1 s2 = some a) : ∃ a1 a2 k n, s1 = a1 ++ [k] ∧ s2 = a2 ++ [k, n] := by
  unfold dot at h
  have hl1 : s1.length ≠ 0 := fun h0 => h1 (List.eq_nil_of_length_eq_zero h0)
  rw [if_neg (by omega)] at h
  obtain ⟨out, h, _⟩ := Option.bind_eq_some_iff.1 h
  unfold dotOutShape at h
  obtain ⟨a1, k, rfl⟩ := split_one (l := s1) (by omega)
  obtain ⟨a2, k', n, rfl⟩ := split_two h2
  rw [item_last, item_second] at h
  split at h
  · exact nomatch h
  · rename_i hk
    have hk : k = k' := Option.some.inj (Classical.byContradiction fun h => hk h)
    subst hk
    exact ⟨a1, a2, k, n, rfl, rfl⟩

/-! ### Outer products -/

theorem outer_terms (c m n : Nat) : ∃ a, outer c [m] [n] = some a ∧ a.shape = [m, n] ∧
    ∀ i j, i < m → j < n → terms a [i, j] = [[[i], [j]]] := by
  let a : Assignment := ⟨[m, n], [c, c + 1], [⟨[m], [c]⟩, ⟨[n], [c + 1]⟩]⟩
  have hnd : [c, c + 1].Nodup := by simp
  let f := bindEnv [c, c + 1] [m, n]
  have hm : [c, c + 1].map f = [m, n] := map_bindEnv hnd rfl
  have h0 : f c = m := (List.cons.inj hm).1
  have h1 : f (c + 1) = n := (List.cons.inj (List.cons.inj hm).2).1
  have hc : assign a = some a := by
    refine consistent_of f hm ?_
    intro o ho
    simp only [a, List.mem_cons, List.not_mem_nil, or_false] at ho
    rcases ho with rfl | rfl
    · show [f c] = [m]
      rw [h0]
    · show [f (c + 1)] = [n]
      rw [h1]
  refine ⟨a, hc, rfl, fun i j hi hj => ?_⟩
  refine terms_none hc hnd rfl (inBox_cons.2 ⟨hi, inBox_one.2 hj⟩) ?_ ?_
  · intro e he
    have e0 : e c = i := (List.cons.inj he).1
    have e1 : e (c + 1) = j := (List.cons.inj (List.cons.inj he).2).1
    show [[e c], [e (c + 1)]] = _
    rw [e0, e1]
  · intro e he o ho
    have e0 : e c = i := (List.cons.inj he).1
    have e1 : e (c + 1) = j := (List.cons.inj (List.cons.inj he).2).1
    simp only [a, List.mem_cons, List.not_mem_nil, or_false] at ho
    rcases ho with rfl | rfl
    · show InBox [m] [e c]
      rw [e0]
      exact inBox_one.2 hi
    · show InBox [n] [e (c + 1)]
      rw [e1]
      exact inBox_one.2 hj

end Verif.Numpy
