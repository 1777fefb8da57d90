import Verif.Init.Block
import Verif.Init.Spec
/-!
C68: what a program computes does not depend on what the memory of its result held before, and is the
meaning of the assignment; where the code that initialises values is missing or in the wrong place.
-/
namespace Verif.Init
open Verif.Merge
open Verif.Merge.Expr
open Verif.Pack (Kind Row permute unpermute inRange QsortSpec sortRows)
open Verif.EndToEnd (Operand Result OperandOK RepeatsAreFactors AddLaws meaning exprVal coordOf loops Inside evalAtPath sumBox
  loopCoord loopCoord_eq sumBox_congr sumBox_zero expr_value operand_storage mapM_get consistent_loops permute_map permute_perm mem_permute
  coordOf_append_left coordOf_append_right coordOf_permute coordOf_map coordOf_lt inRange_map inRange_map_append)
open Verif.Assembly (inRange_unpermute)

variable {V : Type}

/-! ### Lemmas -/

theorem upper_eq (hi : List Kind) (n : Nat) (h : hi.getLast? ≠ some .dense) : upper (hi ++ List.replicate n .dense) = hi.length := by
  unfold upper
  rw [List.reverse_append, List.reverse_replicate]
  have h1 : ∀ (n : Nat) (l : List Kind), (List.replicate n Kind.dense ++ l).dropWhile (fun k => k == Kind.dense) = l.dropWhile (fun k => k == Kind.dense) := by
    intro n l
    induction n with
    | zero => rfl
    | succ n ih => rw [List.replicate_succ, List.cons_append, List.dropWhile_cons]; simpa using ih
  rw [h1]
  have h2 : hi.reverse.dropWhile (fun k => k == Kind.dense) = hi.reverse := by
    cases hr : hi.reverse with
    | nil => rfl
    | cons k l =>
      have : hi.getLast? = some k := by rw [List.getLast?_eq_head?_reverse, hr]; rfl
      rw [this] at h
      rw [List.dropWhile_cons, if_neg]
      intro hk
      exact h (by rw [beq_iff_eq.1 hk])
  rw [h2, List.length_reverse]

theorem lookup_zip_dense : ∀ {sv : List Nat} {hi lo : List Kind}, sv.Nodup → (hi ++ lo).length = sv.length → (∀ k ∈ lo, k = .dense) →
    ∀ v ∈ sv.drop hi.length, (sv.zip (hi ++ lo)).lookup v = some .dense := by
  intro sv
  induction sv with
  | nil => intro hi lo _ _ _ v hv; simp at hv
  | cons w sv ih =>
    intro hi lo hnd hl hlo v hv
    cases hi with
    | cons k hi =>
      have hv' : v ∈ sv.drop hi.length := by simpa using hv
      have hvw : v ≠ w := fun h => (List.nodup_cons.1 hnd).1 (h ▸ List.mem_of_mem_drop hv')
      rw [List.cons_append, List.zip_cons_cons, List.lookup_cons]
      have : (v == w) = false := by simpa using hvw
      rw [this]
      exact ih (List.nodup_cons.1 hnd).2 (by simpa using hl) hlo v hv'
    | nil =>
      cases lo with
      | nil => simp at hl
      | cons k lo =>
        rw [List.nil_append, List.zip_cons_cons, List.lookup_cons]
        by_cases hvw : v = w
        · subst hvw
          simp only [beq_self_eq_true]
          rw [hlo k List.mem_cons_self]
        · have : (v == w) = false := by simpa using hvw
          rw [this]
          have hv' : v ∈ sv := by
            rcases List.mem_cons.1 (show v ∈ w :: sv by simpa using hv) with h | h
            · exact absurd h hvw
            · exact h
          exact ih (hi := []) (lo := lo) (List.nodup_cons.1 hnd).2 (by simpa using hl) (fun k hk => hlo k (List.mem_cons_of_mem _ hk)) v hv'

theorem box_nodup (d : List Nat) : (box d).Nodup := by
  refine (Pack.box_sorted d).imp ?_
  intro a b h heq
  rw [heq, Pack.lexCmp_self] at h; omega

/-- Coordinates of the loops and of the components. -/
theorem coord_eq {perm vars red up low below path c z : List Nat} (hp : perm.Perm (List.range vars.length)) (hnd : (vars ++ red).Nodup)
    (hsv : permute perm vars = up ++ low) (hperm : (below).Perm (low ++ red)) (hpl : path.length = up.length) (hcl : c.length = low.length)
    (hpc : permute perm (unpermute perm (path ++ c)) = path ++ c) (hul : (unpermute perm (path ++ c)).length = vars.length)
    {v : Nat} (hv : v ∈ up ++ below) :
    coordOf (up ++ below) (path ++ below.map (coordOf (low ++ red) (c ++ z))) v =
      coordOf (vars ++ red) (unpermute perm (path ++ c) ++ z) v := by
  have hvnd : vars.Nodup := (List.nodup_append.1 hnd).1
  have hmem : ∀ w, w ∈ up ++ low ↔ w ∈ vars := fun w => by rw [← hsv]; exact mem_permute hp
  have hres : ∀ w ∈ vars, coordOf (vars ++ red) (unpermute perm (path ++ c) ++ z) w = coordOf (up ++ low) (path ++ c) w := by
    intro w hw
    rw [coordOf_append_left hul.symm _ _ hw, ← coordOf_permute hp hvnd hw, hsv, hpc]
  by_cases hu : v ∈ up
  · rw [coordOf_append_left hpl.symm _ _ hu, hres v ((hmem v).1 (List.mem_append_left _ hu)), coordOf_append_left hpl.symm _ _ hu]
  · have hb : v ∈ below := by rcases List.mem_append.1 hv with h | h; exact absurd h hu; exact h
    rw [coordOf_append_right hpl.symm _ _ hu, coordOf_map _ hb]
    by_cases hl : v ∈ low
    · rw [coordOf_append_left hcl.symm _ _ hl, hres v ((hmem v).1 (List.mem_append_right _ hl)), coordOf_append_right hpl.symm _ _ hu]
    · have hvr : v ∉ vars := fun h => by
        rcases List.mem_append.1 ((hmem v).2 h) with h' | h'
        · exact hu h'
        · exact hl h'
      rw [coordOf_append_right hcl.symm _ _ hl, coordOf_append_right hul.symm _ _ hvr]

/-- The innermost loops are over summation variables. -/
theorem promoted_spec (r : Result) (vs : List Nat) : ∀ v ∈ vs.drop (vs.length - promoted r vs), v ∉ r.vars := by
  intro v hv
  unfold promoted at hv
  split at hv
  · simp at hv
  · have h1 : vs.drop (vs.length - (vs.reverse.takeWhile (fun v => !r.vars.contains v)).length) =
        (vs.reverse.takeWhile (fun v => !r.vars.contains v)).reverse := by
      have h2 : vs = (vs.reverse.dropWhile (fun v => !r.vars.contains v)).reverse ++ (vs.reverse.takeWhile (fun v => !r.vars.contains v)).reverse := by
        rw [← List.reverse_append, List.takeWhile_append_dropWhile, List.reverse_reverse]
      have h3 := congrArg List.length h2
      rw [List.length_append, List.length_reverse, List.length_reverse] at h3
      conv => lhs; arg 2; rw [h2]
      rw [List.drop_append_of_le_length (by rw [List.length_reverse]; omega)]
      rw [List.drop_eq_nil_of_le (by rw [List.length_reverse]; omega), List.nil_append]
    rw [h1, List.mem_reverse] at hv
    have h4 : ∀ (l : List Nat) (q : Nat → Bool), ∀ v ∈ l.takeWhile q, q v = true := by
      intro l q
      induction l with
      | nil => intro v h; cases h
      | cons a l ih =>
        intro v h
        rw [List.takeWhile_cons] at h
        split at h
        · rename_i ha
          rcases List.mem_cons.1 h with rfl | h
          · exact ha
          · exact ih v h
        · cases h
    have := h4 _ _ v hv
    simpa using this

/-- The right-hand side of the assignment is the sum of the innermost loops. -/
theorem leaf_value (o : Ops V) (ho : ZeroLaws o) (lit : V) {srt : List Point → List Point} (hs : SortSpec srt) (vals : Nat → List V)
    (lin : List Loop) (pos : Nat → Nat) (e : Expr V) (hc : ∀ l ∈ lin, Consistent (ctxOf l) e) (hin : Inside vals lin pos e)
    (hlit : lin ≠ [] → lit = o.zero) :
    (kernel o srt vals lin pos e).map (leafVal o lit lin) = some (sumBox o (lin.map Loop.n) (evalAtPath o vals lin pos e)) := by
  obtain ⟨size', hw⟩ := hin
  obtain ⟨k1, k2⟩ := kernel_spec o ho hs vals lin pos e size' hc hw
  rw [k1, Option.map_some]
  congr 1
  cases lin with
  | nil =>
    simp only [List.map_nil, box, visited, List.filter_cons, List.filter_nil, if_true, List.map_cons, leafVal]
    unfold sumBox
    simp only [box, List.foldl_cons, List.foldl_nil, ho.zero_add]
    rfl
  | cons l lin =>
    rw [hlit (by simp)]
    have h1 : ∀ evs, leafVal o o.zero (l :: lin) evs = evs.foldl (fun t ev => o.bin .add t ev.2) o.zero := fun _ => rfl
    rw [h1]
    unfold sumBox
    rw [List.foldl_map]
    exact foldl_filter_zero o ho (evalAtPath o vals (l :: lin) pos e) _ _ _ k2

/-! ### The theorem -/

/-- C68. A program computes the meaning of its assignment whatever the memory of the result held before, both
when the result is assembled while it is computed (`together`) and when it is assembled before, if the
loops down to the last compressed level of the result come first and in storage order (`hup`), and the loop of
the level below comes next when the result is assembled while it is computed (`hfirst`). `hi` are the levels
down to the last compressed one, and `n` is the number of dense levels below. Sums are accumulated from the
number zero `lit` if the innermost loop is over a summation variable or if `n = 0`, and otherwise from the fill
value `fill` of the result: these must be the zero of the sum (`hlit`, `hfill`). -/
theorem memory_does_not_matter_partial (o : Ops V) (ho : ZeroLaws o) (ha : AddLaws o) {srt : List Point → List Point}
    (hs : SortSpec srt) {qs : List (Row V) → List (Row V)} (hq : ∀ n, QsortSpec n qs) (cap : Nat) (hcap : 0 < cap)
    (lit fill : V) (size : Nat → Nat) (ops : List (Operand V)) (e : Expr V) (r : Result) (red vs : List Nat) (together plus : Bool)
    (hnd : (r.vars ++ red).Nodup) (hvs : vs.Perm (r.vars ++ red)) (hp : r.perm.Perm (List.range r.vars.length))
    (hops : ∀ a ∈ ops, OperandOK size vs a) (hrep : RepeatsAreFactors ops e) (hlt : ∀ k ∈ e.leaves, k < ops.length)
    (hk : r.kinds.length = r.vars.length) (hi : List Kind) (n : Nat) (hkinds : r.kinds = hi ++ List.replicate n .dense)
    (hlast : hi.getLast? ≠ some .dense)
    (hup : vs.take hi.length = (permute r.perm r.vars).take hi.length)
    (hfirst : together = true → hi ≠ [] → n ≠ 0 → vs[hi.length]? = (permute r.perm r.vars)[hi.length]?)
    (hlit : plus = true ∨ red ≠ [] → (n = 0 ∨ ∃ v, vs.getLast? = some v ∧ v ∉ r.vars) → lit = o.zero)
    (hfill : n ≠ 0 → fill = o.zero) :
    ∃ out, Holds o.zero (r.vars.map size) (meaning o size ops e r red) out ∧
      ∀ mem, compute together plus qs srt cap o lit fill size ops e r vs mem = some out := by
  have hvnd : vs.Nodup := hvs.nodup_iff.2 hnd
  have hu : upper r.kinds = hi.length := by rw [hkinds]; exact upper_eq hi n hlast
  obtain ⟨sts, hsts, hget⟩ := mapM_get (l := ops) (f := Operand.storage qs cap o size) (fun a h => operand_storage ho ha hq hcap (hops a h))
  obtain ⟨hin, hval⟩ := expr_value (e := e) hvnd hops hlt hget
  have hcons := consistent_loops (size := size) (sts := sts) (vs := vs) hrep (fun a h => (hops a h).perm)
  generalize hvals : (fun k : Nat => (sts[k]?.getD ([], [])).2) = vals at hin hval
  generalize hLg : loops size ops sts vs = L at hin hval hcons
  have hn : L.map Loop.n = vs.map size := by rw [← hLg]; simp [loops, Function.comp]
  have hLlen : L.length = vs.length := by rw [← hLg]; simp [loops]
  -- the loops and the levels above and below
  generalize hk0 : vs.length - promoted r vs = k0
  have hpro := promoted_spec r vs
  rw [hk0] at hpro
  have hk0l : k0 ≤ vs.length := by omega
  have hsvl : (permute r.perm r.vars).length = r.vars.length := (permute_perm hp).length_eq
  have hhik : hi.length ≤ k0 := by
    rcases Nat.lt_or_ge k0 hi.length with hlt' | h
    · exfalso
      have hl : hi.length ≤ vs.length := by
        rw [hvs.length_eq, List.length_append, ← hk, hkinds, List.length_append]; omega
      have h1 : vs[k0] ∈ vs.drop k0 := by
        rw [List.mem_drop_iff_getElem]
        exact ⟨0, by omega, rfl⟩
      have h2 : vs[k0] ∈ vs.take hi.length := by
        rw [List.mem_take_iff_getElem]
        exact ⟨k0, by omega, rfl⟩
      rw [hup] at h2
      exact hpro _ h1 ((mem_permute hp).1 (List.mem_of_mem_take h2))
    · exact h
  generalize hinn : vs.drop k0 = inn at hpro
  generalize hupd : vs.take hi.length = up at hup
  generalize hbel : (vs.take k0).drop hi.length = below
  generalize hlowd : (permute r.perm r.vars).drop hi.length = low
  have houter : vs.take k0 = up ++ below := by
    rw [← hupd, ← hbel]
    conv => lhs; rw [← List.take_append_drop hi.length (vs.take k0)]
    rw [List.take_take, Nat.min_eq_left hhik]
  have hvsplit : vs = up ++ (below ++ inn) := by
    rw [← List.append_assoc, ← houter, ← hinn, List.take_append_drop]
  have hsv : permute r.perm r.vars = up ++ low := by rw [hup, ← hlowd, List.take_append_drop]
  have hupl : up.length = hi.length := by
    rw [hup, List.length_take, hsvl, ← hk, hkinds, List.length_append]; omega
  have hlowl : low.length = n := by
    have := congrArg List.length hsv
    rw [hsvl, List.length_append, ← hk, hkinds, List.length_append, List.length_replicate] at this
    omega
  have hsnd : (up ++ low).Nodup := by rw [← hsv]; exact (permute_perm hp).nodup_iff.2 (List.nodup_append.1 hnd).1
  have hmem : ∀ w, w ∈ up ++ low ↔ w ∈ r.vars := fun w => by rw [← hsv]; exact mem_permute hp
  have hbperm : (below ++ inn).Perm (low ++ red) := by
    have h1 : (up ++ (below ++ inn)).Perm ((up ++ low) ++ red) := by
      rw [← hvsplit, ← hsv]
      exact hvs.trans ((permute_perm hp).symm.append_right red)
    rw [List.append_assoc] at h1
    exact (List.perm_append_left_iff _).1 h1
  have hbnd : (below ++ inn).Nodup := (List.nodup_append.1 (hvsplit ▸ hvnd)).2.1
  have hlrnd : (low ++ red).Nodup := hbperm.nodup_iff.1 hbnd
  have hlowinn : ∀ v ∈ low, v ∉ inn := fun v hv h => hpro v h ((hmem v).1 (List.mem_append_right _ hv))
  have hupbel : ∀ v ∈ up, v ∉ below := fun v hv h => by
    rw [hvsplit] at hvnd
    exact (List.nodup_append.1 hvnd).2.2 v hv v (List.mem_append_left _ h) rfl
  generalize hlu : L.take hi.length = lu
  generalize hlb : L.drop hi.length = lb
  generalize hlin : L.drop k0 = lin
  generalize hlbo : lb.take (k0 - hi.length) = lbo
  have hLsplit : L = lu ++ lb := by rw [← hlu, ← hlb, List.take_append_drop]
  have hlbsplit : lb = lbo ++ lin := by
    rw [← hlbo, ← hlin]
    conv => lhs; rw [← List.take_append_drop (k0 - hi.length) lb]
    rw [← hlb, List.drop_drop, show hi.length + (k0 - hi.length) = k0 by omega]
  have hnu : lu.map Loop.n = up.map size := by rw [← hlu, List.map_take, hn, ← hupd, List.map_take]
  have hnb : lb.map Loop.n = (below ++ inn).map size := by
    have h1 : L.map Loop.n = (up ++ (below ++ inn)).map size := by rw [hn, ← hvsplit]
    rw [hLsplit, List.map_append, List.map_append, hnu] at h1
    exact List.append_cancel_left h1
  have hni : lin.map Loop.n = inn.map size := by rw [← hlin, List.map_drop, hn, ← hinn, List.map_drop]
  have hno : lbo.map Loop.n = below.map size := by
    rw [hlbsplit, List.map_append, List.map_append, hni] at hnb
    exact List.append_cancel_right hnb
  have hlbl : lbo.length = below.length := by have := congrArg List.length hno; simpa using this
  have hlil : lin.length = inn.length := by have := congrArg List.length hni; simpa using this
  rw [hLsplit, hlbsplit] at hcons hin hval
  obtain ⟨ps, hps1, hps2, hps3, hps4⟩ := positions_spec o ho hs vals (lbo ++ lin) lu (fun _ => 0) e hcons hin
  rw [hnu] at hps3 hps4
  -- the plan
  generalize hPg : planOf srt together plus size r vs L e = P
  have hPt : P.together = together := by rw [← hPg]; rfl
  have hPlow : P.low = low := by rw [← hPg]; show (permute r.perm r.vars).drop (upper r.kinds) = low; rw [hu, hlowd]
  have hPdims : P.dims = low.map size := by rw [← hPg]; show ((permute r.perm r.vars).drop (upper r.kinds)).map size = _; rw [hu, hlowd]
  have hPbel : P.below = below := by
    rw [← hPg]; show (vs.take (vs.length - promoted r vs)).drop (upper r.kinds) = below; rw [hu, hk0, hbel]
  have hPapp : P.append = true ↔ hi ≠ [] := by
    rw [← hPg]; show (upper r.kinds != 0) = true ↔ _; rw [hu]; cases hi <;> simp
  have hPacc : P.acc = ((plus && promoted r vs == 0) || (up ++ below).any (fun v => !r.vars.contains v)) := by
    rw [← hPg, ← houter, ← hk0]; rfl
  have hPneed : P.need = (hasSparseInserts srt vs L (permute r.perm r.vars) r.kinds e || P.acc) := by rw [← hPg]; rfl
  have hPd : P.dims = [] ↔ P.low = [] := by rw [hPdims, hPlow]; simp
  have hred : P.acc = false → ∀ v ∈ below, v ∈ low := by
    intro h v hv
    rw [hPacc, Bool.or_eq_false_iff] at h
    have := List.any_eq_false.1 h.2 v (List.mem_append_right _ hv)
    have hvr : v ∈ r.vars := by simpa using this
    rcases List.mem_append.1 ((hmem v).2 hvr) with h' | h'
    · exact absurd hv (hupbel v h')
    · exact h'
  have haccred : P.acc = true → plus = true ∨ red ≠ [] := by
    intro h
    rw [hPacc, Bool.or_eq_true] at h
    rcases h with h | h
    · rw [Bool.and_eq_true] at h; exact Or.inl h.1
    · right
      intro hr
      obtain ⟨v, hv, hvn⟩ := List.any_eq_true.1 h
      have hvv : v ∈ vs := by rw [hvsplit, ← List.append_assoc]; exact List.mem_append_left _ hv
      have := hvs.mem_iff.1 hvv
      rw [hr, List.append_nil] at this
      simp [this] at hvn
  have hlitin : lin ≠ [] → lit = o.zero := by
    intro h
    have hne : inn ≠ [] := by
      intro hi0; apply h; rw [← List.length_eq_zero_iff, hlil, hi0]; rfl
    have hlast' : ∃ v, inn.getLast? = some v ∧ v ∈ inn := ⟨inn.getLast hne, List.getLast?_eq_some_getLast hne, List.getLast_mem hne⟩
    obtain ⟨v, hv1, hv2⟩ := hlast'
    apply hlit
    · right
      intro hr
      have := hbperm.mem_iff.1 (List.mem_append_right below hv2)
      rw [hr, List.append_nil] at this
      exact hlowinn v this hv2
    · refine Or.inr ⟨v, ?_, hpro v hv2⟩
      rw [hvsplit, List.getLast?_append, List.getLast?_append, hv1]; rfl
  -- the loops below visit everything when nothing is initialised
  have hfull : P.need = false → ∀ l ∈ lbo, ∀ k ∈ e.leaves, ctxOf l k ≠ some compressedAttr := by
    intro h l hl
    rw [hPneed, Bool.or_eq_false_iff] at h
    obtain ⟨i, hi', rfl⟩ := List.getElem_of_mem hl
    have hib : i < below.length := by omega
    have hv : below[i] ∈ low := hred h.2 _ (List.getElem_mem hib)
    apply sparseLoop_sound hs (hcons _ (List.mem_append_right _ (List.mem_append_left _ hl))).self
    have hz : (below[i], lbo[i]) ∈ vs.zip L := by
      rw [hvsplit, hLsplit, hlbsplit, List.zip_append (by rw [← List.length_map (f := size) (as := up), ← hnu, List.length_map]),
        List.zip_append hlbl.symm]
      apply List.mem_append_right
      apply List.mem_append_left
      have hiz : i < (below.zip lbo).length := by rw [List.length_zip]; omega
      have := List.getElem_mem hiz
      rwa [List.getElem_zip] at this
    have h1 := List.any_eq_false.1 h.1 _ hz
    have h2 : ((permute r.perm r.vars).zip r.kinds).lookup below[i] = some Kind.dense := by
      rw [hkinds]
      apply lookup_zip_dense (by rw [hsv]; exact hsnd) (by rw [← hkinds, hk, hsvl])
      · intro k hk'; exact List.eq_of_mem_replicate hk'
      · rw [hlowd]; exact hv
    simp only [h2, beq_self_eq_true, Bool.true_and, Bool.not_eq_true] at h1
    exact h1
  -- what the loops below a position do
  let ps2 : List Nat × (Nat → Nat) × Expr V → List (List Nat × (Nat → Nat) × Expr V) := fun x =>
    (positions srt lbo x.2.1 x.2.2).getD []
  let val : List Nat × (Nat → Nat) × Expr V → List Nat → V := fun x => evalAtPath o vals (lbo ++ lin) x.2.1 x.2.2
  let evs : List Nat × (Nat → Nat) × Expr V → List (List Nat × V) := fun x =>
    ((ps2 x).map Prod.fst).map (fun path => (path, sumBox o (inn.map size) (fun z => val x (path ++ z))))
  let acts : List Nat × (Nat → Nat) × Expr V → List (Act V) := fun x =>
    (if P.together && P.append && !P.low.isEmpty then [Act.init] else []) ++ (evs x).map toStore
  let F : List Nat × (Nat → Nat) × Expr V → List Nat → V := fun x c =>
    sumBox o (red.map size) (fun z => val x ((below ++ inn).map (coordOf (low ++ red) (c ++ z))))
  have hzip : (below.zip lbo).map Prod.snd = lbo := by
    rw [List.map_snd_zip (by omega)]
  have hzip2 : P.below.zip (L.drop (upper r.kinds)) = below.zip lbo := by
    rw [hPbel, hu, hlb, hlbsplit]
    have := List.zip_append (l₁ := below) (r₁ := []) (l₂ := lbo) (r₂ := lin) hlbl.symm
    rw [List.append_nil, List.zip_nil_left, List.append_nil] at this
    exact this
  have hps : ∀ x ∈ ps, positions srt lbo x.2.1 x.2.2 = some (ps2 x) ∧ ((ps2 x).map Prod.fst).Nodup ∧
      (∀ y ∈ ps2 x, y.1 ∈ box (below.map size) ∧ (∀ l ∈ lin, Consistent (ctxOf l) y.2.2) ∧ Inside vals lin y.2.1 y.2.2 ∧
        ∀ q, evalAtPath o vals lin y.2.1 y.2.2 q = val x (y.1 ++ q)) ∧
      (∀ path ∈ box (below.map size), path ∉ (ps2 x).map Prod.fst → ∀ q, val x (path ++ q) = o.zero) ∧
      ((∀ l ∈ lbo, ∀ k ∈ e.leaves, ctxOf l k ≠ some compressedAttr) → ∀ path ∈ box (below.map size), path ∈ (ps2 x).map Prod.fst) := by
    intro x hx
    obtain ⟨_, hc, hin', hsub, _⟩ := hps3 x hx
    obtain ⟨qs', q1, q2, q3, q4⟩ := positions_spec o ho hs vals lin lbo x.2.1 x.2.2 hc hin'
    have hq' : ps2 x = qs' := by show (positions srt lbo x.2.1 x.2.2).getD [] = _; rw [q1]; rfl
    rw [hq']
    rw [hno] at q3 q4
    refine ⟨q1, q2, fun y hy => ⟨(q3 y hy).1, (q3 y hy).2.1, (q3 y hy).2.2.1, (q3 y hy).2.2.2.2⟩, q4, ?_⟩
    intro hf
    have := positions_full o ho hs vals lin lbo x.2.1 x.2.2 hc hin' (fun l hl k hk' => hf l hl k (hsub k hk')) qs' q1
    rwa [hno] at this
  have hacts : ∀ x ∈ ps, actions o lit srt vals P.mark lin (P.below.zip (L.drop (upper r.kinds))) x.2.1 x.2.2 = some (acts x) := by
    intro x hx
    rw [hzip2]
    obtain ⟨p1, _, p3, _⟩ := hps x hx
    obtain ⟨as, has, hst⟩ := actions_of_positions o lit srt vals P.mark lin
      (fun y => sumBox o (inn.map size) (evalAtPath o vals lin y.1 y.2)) (below.zip lbo) x.2.1 x.2.2 (ps2 x)
      (by rw [hzip]; exact p1) (by
        intro y hy
        obtain ⟨_, hc, hin', _⟩ := p3 y hy
        rw [leaf_value o ho lit hs vals lin y.2.1 y.2.2 hc hin' hlitin, hni])
    have hst : storesOf as = evs x := by
      rw [hst]
      show _ = ((ps2 x).map Prod.fst).map _
      rw [List.map_map]
      apply List.map_congr_left
      intro y hy
      show (y.1, _) = (y.1, _)
      congr 1
      apply sumBox_congr
      intro z _
      exact (p3 y hy).2.2.2 z
    rw [has]
    congr 1
    show as = _ ++ (evs x).map toStore
    rw [← hst]
    by_cases hm : (P.together && P.append && !P.low.isEmpty) = true
    · rw [if_pos hm]
      have hm' := hm
      rw [Bool.and_eq_true, Bool.and_eq_true] at hm'
      obtain ⟨⟨ht, happ⟩, hl⟩ := hm'
      rw [hPlow] at hl
      cases hlow : low with
      | nil => rw [hlow] at hl; cases hl
      | cons v low' =>
        have hf := hfirst (hPt ▸ ht) (hPapp.1 happ) (by rw [← hlowl, hlow]; simp)
        have h2 : (permute r.perm r.vars)[hi.length]? = some v := by
          rw [hsv, List.getElem?_append_right (by omega), hupl, Nat.sub_self, hlow]; rfl
        rw [h2, hvsplit, List.getElem?_append_right (by omega), hupl, Nat.sub_self] at hf
        cases hb : below with
        | nil =>
          exfalso
          rw [hb, List.nil_append] at hf
          exact hlowinn v (by rw [hlow]; exact List.mem_cons_self) (List.mem_of_getElem? hf)
        | cons w below' =>
          rw [hb] at hf
          have hwv : w = v := by simpa using hf
          cases hlb' : lbo with
          | nil => rw [hlb', hb] at hlbl; cases hlbl
          | cons l lb' =>
            rw [hb, hlb', List.zip_cons_cons] at has
            have hbnd' : below.Nodup := (List.nodup_append.1 hbnd).1
            rw [hb] at hbnd'
            have := actions_marked o lit srt vals P.mark lin w l (below'.zip lb') x.2.1 x.2.2 as (by
              unfold Plan.mark; rw [ht, happ, hPlow, hlow, hwv]; simp) (by
              intro y hy
              unfold Plan.mark
              have hy1 := (List.of_mem_zip hy).1
              have hne' : y.1 ≠ w := fun h => (List.nodup_cons.1 hbnd').1 (h ▸ hy1)
              rw [hPlow, hlow, ← hwv]
              simp only [List.head?_cons, Bool.and_eq_false_iff]
              right
              simpa using fun h : w = y.1 => hne' h.symm) has
            exact this
    · rw [if_neg hm, List.nil_append]
      apply actions_unmarked o lit srt vals P.mark lin (below.zip lbo) x.2.1 x.2.2 as _ has
      intro y _
      unfold Plan.mark
      rw [Bool.and_eq_true, not_and_or] at hm
      rcases hm with h | h
      · have : (P.together && P.append) = false := by simpa using h
        rw [this]; rfl
      · have : P.low = [] := by
          cases hl : P.low with
          | nil => rfl
          | cons a b => rw [hl] at h; exact absurd rfl h
        rw [this]; simp
  have hsubL : ∀ v ∈ low, v ∈ below := by
    intro v hv
    rcases List.mem_append.1 (hbperm.mem_iff.2 (List.mem_append_left red hv)) with h | h
    · exact h
    · exact absurd h (hlowinn v hv)
  have hgood : ∀ x ∈ ps, Good o lit fill P (acts x) (F x) := by
    intro x hx
    obtain ⟨_, p2, p3, p4, p5⟩ := hps x hx
    have hin2 : ∀ path ∈ (ps2 x).map Prod.fst, path ∈ box (below.map size) := by
      intro path hpath
      obtain ⟨y, hy, rfl⟩ := List.mem_map.1 hpath
      exact (p3 y hy).1
    have hcoord : ∀ path ∈ box (below.map size), P.coords path ∈ box P.dims := by
      intro path hpath
      have hpl : path.length = below.length := by rw [(Pack.mem_box.1 hpath).1]; simp
      unfold Plan.coords
      rw [hPlow, hPbel, hPdims]
      refine Pack.mem_box.2 (inRange_map (fun v hv => ?_))
      rw [loopCoord_eq hpl]
      exact coordOf_lt (Pack.mem_box.1 hpath) (hsubL v hv)
    apply good_of o lit fill P (acts x) (evs x) (F x) hPd
    · rfl
    · intro ev hev
      obtain ⟨path, hpath, rfl⟩ := List.mem_map.1 hev
      exact hcoord path (hin2 path hpath)
    · intro c hc y hy1 hy2
      rw [hPdims] at hc
      have hcoords : (fun (ev : List Nat × V) => P.coords ev.1 == c) = (fun ev => low.map (loopCoord below ev.1) == c) := by
        funext ev; unfold Plan.coords; rw [hPlow, hPbel]
      rw [hcoords]
      refine block_value o ho ha size hlrnd hbperm hlowinn P.acc hred _ p2 hin2 (val x) p4 y ?_ hc
      by_cases hl0 : low = []
      · by_cases hacc : P.acc = true
        · left
          rw [hy2 (by rw [hPlow, hl0]) (Or.inr hacc)]
          exact hlit (haccred hacc) (Or.inl (by rw [← hlowl, hl0]; rfl))
        · have hacc' : P.acc = false := by simpa using hacc
          refine Or.inr ⟨hacc', p5 ?_⟩
          -- no loops below
          have hb0 : below = [] := by
            cases hb : below with
            | nil => rfl
            | cons v b =>
              have := hred hacc' v (by rw [hb]; exact List.mem_cons_self)
              rw [hl0] at this; cases this
          intro l hl
          rw [hb0] at hlbl
          rw [List.length_eq_zero_iff.1 hlbl] at hl
          cases hl
      · by_cases hneed : P.need = true
        · left
          rw [hy1 (by rw [hPlow]; exact hl0) hneed]
          apply hfill
          rw [← hlowl]
          exact fun h => hl0 (List.length_eq_zero_iff.1 h)
        · have hneed' : P.need = false := by simpa using hneed
          refine Or.inr ⟨?_, p5 (hfull hneed')⟩
          rw [hPneed, Bool.or_eq_false_iff] at hneed'
          exact hneed'.2
  -- the components
  have hp' : r.perm.Perm (List.range (r.vars.map size).length) := by rw [List.length_map]; exact hp
  have hpd : permute r.perm (r.vars.map size) = (up ++ low).map size := by rw [permute_map hp, hsv]
  have hvalue : ∀ path c, path ∈ box (up.map size) → c ∈ box (low.map size) →
      inRange (r.vars.map size) (unpermute r.perm (path ++ c)) ∧ permute r.perm (unpermute r.perm (path ++ c)) = path ++ c ∧
      sumBox o (red.map size) (fun z => evalAtPath o vals (lu ++ (lbo ++ lin)) (fun _ => 0) e (path ++ (below ++ inn).map (coordOf (low ++ red) (c ++ z)))) =
        meaning o size ops e r red (unpermute r.perm (path ++ c)) := by
    intro path c hpath hc
    have h1 := Pack.mem_box.1 hpath
    have h2 := Pack.mem_box.1 hc
    have hpl : path.length = up.length := by rw [h1.1]; simp
    have hcl : c.length = low.length := by rw [h2.1]; simp
    obtain ⟨h3, h4⟩ := inRange_unpermute hp' (c := path ++ c) (by rw [hpd]; exact inRange_map_append h1 h2)
    refine ⟨h3, h4, ?_⟩
    have hul : (unpermute r.perm (path ++ c)).length = r.vars.length := by rw [h3.1]; simp
    unfold meaning
    apply sumBox_congr
    intro z hz
    have h5 : inRange ((below ++ inn).map size) ((below ++ inn).map (coordOf (low ++ red) (c ++ z))) :=
      inRange_map (fun v hv => coordOf_lt (inRange_map_append h2 (Pack.mem_box.1 hz)) (hbperm.mem_iff.1 hv))
    rw [hval _ (by rw [hvsplit]; exact inRange_map_append h1 h5)]
    unfold exprVal
    apply eval_congr
    intro k hk'
    rw [List.getElem?_eq_getElem (hlt k hk')]
    simp only
    congr 1
    have hok := hops _ (List.getElem_mem (hlt k hk'))
    apply List.map_congr_left
    intro v hv
    have hvv : v ∈ vs := hok.order.subset ((mem_permute hok.perm).2 hv)
    rw [hvsplit] at hvv ⊢
    exact coord_eq hp hnd hsv hbperm hpl hcl h4 hul hvv
  have hFval : ∀ x ∈ ps, ∀ c, F x c = sumBox o (red.map size) (fun z => evalAtPath o vals (lu ++ (lbo ++ lin)) (fun _ => 0) e (x.1 ++ (below ++ inn).map (coordOf (low ++ red) (c ++ z)))) := by
    intro x hx c
    apply sumBox_congr
    intro z _
    exact (hps3 x hx).2.2.2.2 _
  let out := (ps.flatMap (fun x => (box P.dims).map (fun c => (x.1 ++ c, F x c)))).map (fun (y : Row V) => (unpermute r.perm y.1, y.2))
  have hmemout : ∀ y, y ∈ out ↔ ∃ x ∈ ps, ∃ c ∈ box (low.map size), y = (unpermute r.perm (x.1 ++ c), F x c) := by
    intro y
    show y ∈ List.map _ (List.flatMap _ _) ↔ _
    rw [hPdims]
    constructor
    · intro h
      obtain ⟨y', hy', rfl⟩ := List.mem_map.1 h
      obtain ⟨x, hx, hy2⟩ := List.mem_flatMap.1 hy'
      obtain ⟨c, hc, rfl⟩ := List.mem_map.1 hy2
      exact ⟨x, hx, c, hc, rfl⟩
    · rintro ⟨x, hx, c, hc, rfl⟩
      exact List.mem_map.2 ⟨(x.1 ++ c, F x c), List.mem_flatMap.2 ⟨x, hx, List.mem_map.2 ⟨c, hc, rfl⟩⟩, rfl⟩
  refine ⟨out, ⟨?_, ?_, ?_⟩, ?_⟩
  · -- once
    have h1 : (out.map (fun y => permute r.perm y.1)).Nodup := by
      have h2 : out.map (fun y => permute r.perm y.1) = ps.flatMap (fun x => (box (low.map size)).map (fun c => x.1 ++ c)) := by
        show List.map _ (List.map _ (List.flatMap _ _)) = _
        rw [hPdims, List.map_map, List.map_flatMap]
        rw [List.flatMap_def, List.flatMap_def]
        congr 1
        apply List.map_congr_left
        intro x hx
        rw [List.map_map]
        apply List.map_congr_left
        intro c hc
        exact (hvalue x.1 c (hps3 x hx).1 hc).2.1
      rw [h2, List.nodup_flatMap]
      constructor
      · intro x _
        exact (box_nodup _).map (fun a b h => List.append_cancel_left h)
      · have hpw : ps.Pairwise (fun a b => a.1 ≠ b.1) := by
          have := hps2
          unfold List.Nodup at this
          rwa [List.pairwise_map] at this
        refine hpw.imp_of_mem ?_
        intro a b ha' hb' hab y hy1 hy2
        simp only at hy1 hy2
        obtain ⟨c1, hc1, rfl⟩ := List.mem_map.1 hy1
        obtain ⟨c2, hc2, heq⟩ := List.mem_map.1 hy2
        have l1 := (Pack.mem_box.1 (hps3 a ha').1).1
        have l2 := (Pack.mem_box.1 (hps3 b hb').1).1
        exact hab (List.append_inj heq (by omega)).1.symm
    have h3 : out.map (fun y => permute r.perm y.1) = (out.map Prod.fst).map (permute r.perm) := (List.map_map (f := Prod.fst) (g := permute r.perm) (l := out)).symm
    rw [h3] at h1
    exact h1.of_map
  · intro y hy
    obtain ⟨x, hx, c, hc, rfl⟩ := (hmemout y).1 hy
    obtain ⟨h1, _, h3⟩ := hvalue x.1 c (hps3 x hx).1 hc
    exact ⟨h1, by rw [← h3]; exact hFval x hx c⟩
  · intro c hc hnot
    have hcl : c.length = r.vars.length := by rw [hc.1]; simp
    have hpc : inRange ((up ++ low).map size) (permute r.perm c) := by
      rw [← hpd]
      exact Pack.inRange_permute hp' hc
    have hpcl : (permute r.perm c).length = up.length + low.length := by rw [hpc.1]; simp
    have hsplit : permute r.perm c = (permute r.perm c).take up.length ++ (permute r.perm c).drop up.length := (List.take_append_drop _ _).symm
    have hpath : (permute r.perm c).take up.length ∈ box (up.map size) := by
      apply Pack.mem_box.2
      refine ⟨by rw [List.length_take, List.length_map]; omega, ?_⟩
      intro m h1 h2
      rw [List.length_map] at h2
      have := hpc.2 m (by omega) (by rw [List.length_map, List.length_append]; omega)
      rw [List.getElem_take]
      simp only [List.getElem_map] at this ⊢
      rwa [List.getElem_append_left h2] at this
    have hlow' : (permute r.perm c).drop up.length ∈ box (low.map size) := by
      apply Pack.mem_box.2
      refine ⟨by rw [List.length_drop, List.length_map]; omega, ?_⟩
      intro m h1 h2
      rw [List.length_map] at h2
      have := hpc.2 (up.length + m) (by omega) (by rw [List.length_map, List.length_append]; omega)
      rw [List.getElem_drop]
      simp only [List.getElem_map] at this ⊢
      rw [List.getElem_append_right (by omega)] at this
      simpa using this
    have hcu : unpermute r.perm (permute r.perm c) = c := Pack.unpermute_permute (by rw [hcl]; exact hp)
    obtain ⟨_, _, h3⟩ := hvalue _ _ hpath hlow'
    rw [← hsplit, hcu] at h3
    rw [← h3]
    have hnp : (permute r.perm c).take up.length ∉ ps.map Prod.fst := by
      intro hmem'
      obtain ⟨x, hx, hxe⟩ := List.mem_map.1 hmem'
      apply hnot
      refine List.mem_map.2 ⟨_, (hmemout _).2 ⟨x, hx, _, hlow', rfl⟩, ?_⟩
      simp only
      rw [hxe, ← hsplit, hcu]
    rw [sumBox_congr (g := fun _ => o.zero) (fun z _ => hps4 _ hpath hnp _)]
    exact sumBox_zero ho _
  · intro mem
    have hone : P.append = false → ps.length = 1 := by
      intro h
      have hhi : hi = [] := Classical.byContradiction fun h' => by rw [hPapp.2 h'] at h; cases h
      have hlu0 : lu = [] := by rw [← hlu, hhi]; rfl
      rw [hlu0] at hps1
      cases hps1
      rfl
    obtain ⟨m0, s1, s2, s3⟩ := start_spec lit fill P cap ps.length hcap hPd hone mem
    obtain ⟨m1, r1, _, _, r4⟩ := runAll_spec o lit fill P ps.length acts F Prod.fst hPd ps 0 m0 (by omega) hgood s2 (fun q _ hq => s3 q hq) (by omega)
    unfold compute
    rw [hsts]
    simp only
    rw [hvals, hLg, hPg, hk0, hlin, hu, hlu, hps1]
    simp only
    rw [← hu, EndToEnd.mapM_map _ acts ps hacts]
    simp only
    rw [s1, Option.bind_some, r1, Option.bind_some, r4]
    rfl

/-! ### Examples: a product of matrices, with the columns of the result in a dense level -/

def two : Nat → Nat := fun _ => 2

/-- `B(i,k)` with an empty second row, and `C(k,j)`. -/
def mmOps : List (Operand Nat) :=
  [⟨[0, 2], [.dense, .sparse], [0, 1], [([0, 0], 1), ([0, 1], 2)]⟩,
   ⟨[2, 1], [.dense, .sparse], [0, 1], [([0, 0], 10), ([1, 1], 20)]⟩]

def mmExpr : Expr Nat := .bin .mul (.acc 0) (.acc 1)

/-- `A(i,j)`, with a compressed level of rows. -/
def mmResult : Result := ⟨[0, 1], [.sparse, .dense], [0, 1]⟩

theorem mmOps_ok : ∀ a ∈ mmOps, OperandOK two [0, 2, 1] a := by
  have hr : ∀ (d c : List Nat), c ∈ box d → inRange d c := fun d c h => Pack.mem_box.1 h
  intro a ha
  simp only [mmOps, List.mem_cons, List.not_mem_nil, or_false] at ha
  rcases ha with rfl | rfl
  all_goals
    refine ⟨rfl, by decide, by decide, ?_⟩
    intro r h
    simp only [List.mem_cons, List.not_mem_nil, or_false] at h
    rcases h with rfl | rfl <;> exact hr _ _ (by decide)

/-- With separate assembly the product is right. -/
example : ∃ out, Holds 0 [2, 2] (meaning natOps two mmOps mmExpr mmResult [2]) out ∧
    ∀ mem, compute false false sortRows isort 4 natOps 0 0 two mmOps mmExpr mmResult [0, 2, 1] mem = some out :=
  memory_does_not_matter_partial natOps natOps_laws EndToEnd.natOps_add isort_spec (fun n => Pack.sortRows_spec n) 4 (by decide) 0 0 two
    mmOps mmExpr mmResult [2] [0, 2, 1] false false (by decide) (by decide) (by decide) mmOps_ok
    (EndToEnd.repeats_of_nodup _ (by decide)) (by decide) rfl [.sparse] 1 rfl (by decide) rfl (fun h => by cases h) (fun _ _ => rfl) (fun _ => rfl)

example : compute false false sortRows isort 4 natOps 0 0 two mmOps mmExpr mmResult [0, 2, 1] (fun i => 100 + i) =
    some [([0, 0], 10), ([0, 1], 40), ([1, 0], 0), ([1, 1], 0)] := by decide +kernel

/-- `A(i,j) = B(i,j)` while the result is assembled: the initialisation is in front of the loop over `j`. -/
def cpOps : List (Operand Nat) := [⟨[0, 1], [.sparse, .sparse], [0, 1], [([0, 1], 1), ([1, 0], 2)]⟩]

theorem cpOps_ok : ∀ a ∈ cpOps, OperandOK two [0, 1] a := by
  have hr : ∀ (d c : List Nat), c ∈ box d → inRange d c := fun d c h => Pack.mem_box.1 h
  intro a ha
  simp only [cpOps, List.mem_cons, List.not_mem_nil, or_false] at ha
  subst ha
  refine ⟨rfl, by decide, by decide, ?_⟩
  intro r h
  simp only [List.mem_cons, List.not_mem_nil, or_false] at h
  rcases h with rfl | rfl <;> exact hr _ _ (by decide)

example : ∃ out, Holds 0 [2, 2] (meaning natOps two cpOps (.acc 0) mmResult []) out ∧
    ∀ mem, compute true false sortRows isort 4 natOps 0 0 two cpOps (.acc 0) mmResult [0, 1] mem = some out :=
  memory_does_not_matter_partial natOps natOps_laws EndToEnd.natOps_add isort_spec (fun n => Pack.sortRows_spec n) 4 (by decide) 0 0 two
    cpOps (.acc 0) mmResult [] [0, 1] true false (by decide) (by decide) (by decide) cpOps_ok
    (EndToEnd.repeats_of_nodup _ (by decide)) (by decide) rfl [.sparse] 1 rfl (by decide) rfl (fun _ _ _ => rfl) (fun _ _ => rfl) (fun _ => rfl)

example : compute true false sortRows isort 4 natOps 0 0 two cpOps (.acc 0) mmResult [0, 1] (fun i => 100 + i) =
    some [([0, 0], 0), ([0, 1], 1), ([1, 0], 2), ([1, 1], 0)] := by decide +kernel

/-- The sum of the components of `B`: a scalar result. -/
example : ∃ out, Holds 0 [] (meaning natOps two cpOps (.acc 0) ⟨[], [], []⟩ [0, 1]) out ∧
    ∀ mem, compute true false sortRows isort 4 natOps 0 5 two cpOps (.acc 0) ⟨[], [], []⟩ [0, 1] mem = some out :=
  memory_does_not_matter_partial natOps natOps_laws EndToEnd.natOps_add isort_spec (fun n => Pack.sortRows_spec n) 4 (by decide) 0 5 two
    cpOps (.acc 0) ⟨[], [], []⟩ [0, 1] [0, 1] true false (by decide) (by decide) (by decide) cpOps_ok
    (EndToEnd.repeats_of_nodup _ (by decide)) (by decide) rfl [] 0 rfl (by decide) rfl (fun _ h => absurd rfl h) (fun _ _ => rfl) (fun h => absurd rfl h)

/-- The sums of the rows of `B`, accumulated in a scalar. -/
example : ∃ out, Holds 0 [2] (meaning natOps two cpOps (.acc 0) ⟨[0], [.dense], [0]⟩ [1]) out ∧
    ∀ mem, compute true false sortRows isort 4 natOps 0 0 two cpOps (.acc 0) ⟨[0], [.dense], [0]⟩ [0, 1] mem = some out :=
  memory_does_not_matter_partial natOps natOps_laws EndToEnd.natOps_add isort_spec (fun n => Pack.sortRows_spec n) 4 (by decide) 0 0 two
    cpOps (.acc 0) ⟨[0], [.dense], [0]⟩ [1] [0, 1] true false (by decide) (by decide) (by decide) cpOps_ok
    (EndToEnd.repeats_of_nodup _ (by decide)) (by decide) rfl [] 1 rfl (by decide) rfl (fun _ h => absurd rfl h) (fun _ _ => rfl) (fun _ => rfl)

/-! ### Where it fails -/

/-- The product of matrices while the result is assembled: the values of a row are initialised in front of
the loop over its columns, which is inside the loop over the summation variable. What was summed before is
lost, and a row without summands is not initialised at all. -/
theorem summation_above_dense_level_fails :
    compute true false sortRows isort 4 natOps 0 0 two mmOps mmExpr mmResult [0, 2, 1] (fun _ => 7) =
      some [([0, 0], 0), ([0, 1], 40), ([1, 0], 7), ([1, 1], 7)] ∧
    compute true false sortRows isort 4 natOps 0 0 two mmOps mmExpr mmResult [0, 2, 1] (fun _ => 8) =
      some [([0, 0], 0), ([0, 1], 40), ([1, 0], 8), ([1, 1], 8)] ∧
    meaning natOps two mmOps mmExpr mmResult [2] [0, 0] = 10 ∧ meaning natOps two mmOps mmExpr mmResult [2] [1, 0] = 0 ∧
    ¬ ∃ out, ∀ mem, compute true false sortRows isort 4 natOps 0 0 two mmOps mmExpr mmResult [0, 2, 1] mem = some out := by
  have h7 : compute true false sortRows isort 4 natOps 0 0 two mmOps mmExpr mmResult [0, 2, 1] (fun _ => 7) =
      some [([0, 0], 0), ([0, 1], 40), ([1, 0], 7), ([1, 1], 7)] := by decide +kernel
  have h8 : compute true false sortRows isort 4 natOps 0 0 two mmOps mmExpr mmResult [0, 2, 1] (fun _ => 8) =
      some [([0, 0], 0), ([0, 1], 40), ([1, 0], 8), ([1, 1], 8)] := by decide +kernel
  refine ⟨h7, h8, by decide +kernel, by decide +kernel, ?_⟩
  rintro ⟨out, h⟩
  have e1 := (h (fun _ => 7)).symm.trans h7
  have e2 := (h (fun _ => 8)).symm.trans h8
  have := e1.symm.trans e2
  revert this
  decide

/-- `A(i,j,k) = B(i,k,j)` with `A` in the format {compressed, dense, dense} and the loop over `k` around
the loop over `j`: the initialisation is repeated for every `k`. -/
def trOps : List (Operand Nat) :=
  [⟨[0, 2, 1], [.sparse, .sparse, .sparse], [0, 1, 2], [([0, 0, 0], 1), ([0, 1, 1], 2)]⟩]

theorem order_of_dense_loops_fails :
    compute true false sortRows isort 4 natOps 0 0 two trOps (.acc 0) ⟨[0, 1, 2], [.sparse, .dense, .dense], [0, 1, 2]⟩ [0, 2, 1] (fun _ => 7) =
      some [([0, 0, 0], 0), ([0, 0, 1], 0), ([0, 1, 0], 0), ([0, 1, 1], 2)] ∧
    meaning natOps two trOps (.acc 0) ⟨[0, 1, 2], [.sparse, .dense, .dense], [0, 1, 2]⟩ [] [0, 0, 0] = 1 := by
  constructor <;> decide +kernel

/-- `a(i) += b(i)`: the values of `a` are set to zero before they are added to, so what `a` held before is
lost. -/
def accOps : List (Operand Nat) := [⟨[0], [.sparse], [0], [([0], 1)]⟩]

theorem accumulate_fails : ∀ together : Bool,
    compute together true sortRows isort 4 natOps 0 0 two accOps (.acc 0) ⟨[0], [.dense], [0]⟩ [0] (fun _ => 100) =
      some [([0], 1), ([1], 0)] := by
  intro together
  cases together <;> decide +kernel

end Verif.Init
