import Verif.Replace.Lemmas
/-! Lemmas about statements in which there is nothing to replace. -/
namespace Verif.Replace

theorem orElse_entry {A B : Type} [DecidableEq A] {m : List (A × B)} {n : Option A} {y : B}
    (h : ∃ a, n = some a ∧ m.lookup a = none) : orElse (entry m n) y = y := by
  obtain ⟨a, rfl, h2⟩ := h
  simp [entry, h2, orElse]

theorem same_self {e : Expr} (h : ∃ a, e.addr = some a) : same e e = true := by
  obtain ⟨a, ha⟩ := h
  exact sameAddr_iff.2 ⟨a, ha, ha⟩

theorem sameS_self {s : Stmt} (h : ∃ a, s.addr = some a) : sameS s s = true := by
  obtain ⟨a, ha⟩ := h
  exact sameAddr_iff.2 ⟨a, ha, ha⟩

theorem Without.left {A B : Type} [DecidableEq A] {m : List (A × B)} {x y : List (Option A)}
    (h : Without m (x ++ y)) : Without m x := fun n hn => h n (List.mem_append_left _ hn)

theorem Without.right {A B : Type} [DecidableEq A] {m : List (A × B)} {x y : List (Option A)}
    (h : Without m (x ++ y)) : Without m y := fun n hn => h n (List.mem_append_right _ hn)

theorem Without.head {A B : Type} [DecidableEq A] {m : List (A × B)} {n : Option A}
    {y : List (Option A)} (h : Without m (n :: y)) : ∃ a, n = some a ∧ m.lookup a = none :=
  h n List.mem_cons_self

theorem Without.tail {A B : Type} [DecidableEq A] {m : List (A × B)} {n : Option A}
    {y : List (Option A)} (h : Without m (n :: y)) : Without m y :=
  fun x hx => h x (List.mem_cons_of_mem _ hx)

theorem nodes_addr {m : List (Addr × Expr)} {e : Expr} (h : Without m e.nodes) :
    ∃ a, e.addr = some a := by
  rw [Expr.nodes.eq_def] at h
  obtain ⟨a, ha, _⟩ := h.head
  exact ⟨a, ha⟩

theorem stmtNodes_addr {m : List (Nat × Stmt)} {s : Stmt} (h : Without m s.stmtNodes) :
    ∃ a, s.addr = some a := by
  rw [Stmt.stmtNodes.eq_def] at h
  obtain ⟨a, ha, _⟩ := h.head
  exact ⟨a, ha⟩

mutual
theorem replaceE_keep (m : List (Addr × Expr)) : ∀ (e : Expr), Without m e.nodes → replaceE m e = e
  | .lit a v, h => by
    rw [Expr.nodes] at h
    have hh := h.head
    simp only [Expr.addr] at hh
    rw [replaceE, orElse_entry hh]
  | .ivar i, h => by
    rw [Expr.nodes] at h
    have hh := h.head
    simp only [Expr.addr] at hh
    rw [replaceE, orElse_entry hh]
  | .acc a t is ms st, h => by
    rw [Expr.nodes] at h
    have hh := h.head
    simp only [Expr.addr] at hh
    rw [replaceE, orElse_entry hh]
  | .un a op e, h => by
    rw [Expr.nodes] at h
    have h1 := replaceE_keep m e h.tail
    have hh := h.head
    simp only [Expr.addr] at hh
    rw [replaceE, orElse_entry hh, h1, reUn, same_self (nodes_addr h.tail), if_pos rfl]
  | .bin a op e f, h => by
    rw [Expr.nodes] at h
    have h1 := replaceE_keep m e h.tail.left
    have h2 := replaceE_keep m f h.tail.right
    have hh := h.head
    simp only [Expr.addr] at hh
    rw [replaceE, orElse_entry hh, h1, h2, reBin, same_self (nodes_addr h.tail.left),
      same_self (nodes_addr h.tail.right)]
    rfl
  | .cast a ty e, h => by
    rw [Expr.nodes] at h
    have h1 := replaceE_keep m e h.tail
    rw [replaceE, h1, reCast, same_self (nodes_addr h.tail), if_pos rfl]
  | .call a f es, h => by
    rw [Expr.nodes] at h
    have h1 := replaceArgs_keep m es h.tail
    have hh := h.head
    simp only [Expr.addr] at hh
    rw [replaceE, orElse_entry hh, h1.1, reCall, h1.2, if_pos rfl]
  | .red a op i e, h => by
    rw [Expr.nodes] at h
    have h1 := replaceE_keep m e h.tail
    have hh := h.head
    simp only [Expr.addr] at hh
    rw [replaceE, orElse_entry hh, h1, reRed, same_self (nodes_addr h.tail), if_pos rfl]
theorem replaceArgs_keep (m : List (Addr × Expr)) : ∀ (es : Args), Without m es.nodes →
    replaceArgs m es = es ∧ sameArgs es es = true
  | .nil, _ => ⟨rfl, rfl⟩
  | .cons e es, h => by
    rw [Args.nodes] at h
    have h1 := replaceE_keep m e h.left
    have h2 := replaceArgs_keep m es h.right
    refine ⟨by rw [replaceArgs, h1, h2.1], ?_⟩
    rw [sameArgs, same_self (nodes_addr h.left), h2.2]; rfl
end

theorem replaceS_keep (m : List (Addr × Expr)) (ms : List (Nat × Stmt)) (s : Stmt) :
    Without m s.exprNodes → Without ms s.stmtNodes → replaceS m ms s = s := by
  induction s with
  | assign a l op e =>
    intro he hs
    rw [Stmt.exprNodes] at he
    rw [Stmt.stmtNodes] at hs
    have hh := hs.head
    simp only [Stmt.addr] at hh
    rw [replaceS, orElse_entry hh, replaceE_keep m e he, reAssign, same_self (nodes_addr he),
      if_pos rfl]
  | yield a is e =>
    intro he hs
    rw [Stmt.exprNodes] at he
    rw [Stmt.stmtNodes] at hs
    have hh := hs.head
    simp only [Stmt.addr] at hh
    rw [replaceS, orElse_entry hh, replaceE_keep m e he, reYield, same_self (nodes_addr he),
      if_pos rfl]
  | loop a i at' s ih =>
    intro he hs
    rw [Stmt.exprNodes] at he
    rw [Stmt.stmtNodes] at hs
    have hh := hs.head
    simp only [Stmt.addr] at hh
    rw [replaceS, orElse_entry hh, ih he hs.tail, reLoop, sameS_self (stmtNodes_addr hs.tail),
      if_pos rfl]
  | wher a c p ih1 ih2 =>
    intro he hs
    rw [Stmt.exprNodes] at he
    rw [Stmt.stmtNodes] at hs
    have hh := hs.head
    simp only [Stmt.addr] at hh
    rw [replaceS, orElse_entry hh, ih1 he.left hs.tail.left, ih2 he.right hs.tail.right, reWher,
      sameS_self (stmtNodes_addr hs.tail.left), sameS_self (stmtNodes_addr hs.tail.right)]
    rfl
  | seq a c p ih1 ih2 =>
    intro he hs
    rw [Stmt.exprNodes] at he
    rw [Stmt.stmtNodes] at hs
    have hh := hs.head
    simp only [Stmt.addr] at hh
    rw [replaceS, orElse_entry hh, ih1 he.left hs.tail.left, ih2 he.right hs.tail.right, reSeq,
      sameS_self (stmtNodes_addr hs.tail.left), sameS_self (stmtNodes_addr hs.tail.right)]
    rfl
  | assemble a c p rs ih1 ih2 =>
    intro he hs
    rw [Stmt.exprNodes] at he
    rw [Stmt.stmtNodes] at hs
    have hh := hs.head
    simp only [Stmt.addr] at hh
    rw [replaceS, orElse_entry hh, ih1 he.left hs.tail.left, ih2 he.right hs.tail.right, reAssemble,
      sameS_self (stmtNodes_addr hs.tail.left), sameS_self (stmtNodes_addr hs.tail.right)]
    rfl
  | multi a c p ih1 ih2 =>
    intro he hs
    rw [Stmt.exprNodes] at he
    rw [Stmt.stmtNodes] at hs
    have hh := hs.head
    simp only [Stmt.addr] at hh
    rw [replaceS, orElse_entry hh, ih1 he.left hs.tail.left, ih2 he.right hs.tail.right, reMulti,
      sameS_self (stmtNodes_addr hs.tail.left), sameS_self (stmtNodes_addr hs.tail.right)]
    rfl
  | such a s ps ih =>
    intro he hs
    rw [Stmt.exprNodes] at he
    rw [Stmt.stmtNodes] at hs
    have hh := hs.head
    simp only [Stmt.addr] at hh
    rw [replaceS, orElse_entry hh, ih he hs.tail, reSuch, sameS_self (stmtNodes_addr hs.tail),
      if_pos rfl]

end Verif.Replace
