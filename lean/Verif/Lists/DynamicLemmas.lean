import Verif.Lists.DynamicSpec
import Verif.Dom.ContextLemmas
/-! # Moving blocks of nodes -/
namespace Verif.Lists
open Verif.Dom

theorem nextIn_split {n : NodeId} {P Q : List NodeId} (h : n ∉ P) :
    nextIn n (P ++ n :: Q) = Q.head? := by
  induction P with
  | nil => simp [nextIn]
  | cons x xs ih =>
    simp only [List.mem_cons, not_or] at h
    simp only [List.cons_append, nextIn]
    rw [if_neg (fun e => h.1 e.symm), ih h.2]

/-- what an insertion before a child does to the children -/
theorem insertBefore_kids {d : Dom} {c n r : NodeId} (hr : r ∈ d.kids c) (hne : r ≠ n) :
    ∃ d', d.insertBefore c n (some r) = some d' ∧
      d'.kids c = insertBeforeIn n r ((d.kids c).filter (· != n)) ∧
      ∀ x, x ≠ c → d'.kids x = (d.kids x).filter (· != n) := by
  refine ⟨⟨fun x => if x = c then insertBeforeIn n r ((d.detach n).kids x) else (d.detach n).kids x⟩,
    ?_, ?_, ?_⟩
  · simp only [Dom.insertBefore]
    rw [if_pos hr, if_neg hne]
  · simp only [if_pos]; rfl
  · intro x hx
    simp only [if_neg hx]; rfl

/-- a new node before a child -/
theorem insert_new {d : Dom} {c n r : NodeId} {P Q : List NodeId}
    (hk : d.kids c = P ++ r :: Q) (hr : r ∉ P) (hn : n ∉ d.kids c) :
    ∃ d', d.insertBefore c n (some r) = some d' ∧ d'.kids c = P ++ n :: r :: Q ∧
      ∀ x, x ≠ c → d'.kids x = (d.kids x).filter (· != n) := by
  have hmem : r ∈ d.kids c := by rw [hk]; simp
  obtain ⟨d', h1, h2, h3⟩ := insertBefore_kids (n := n) hmem (fun e => hn (e ▸ hmem))
  refine ⟨d', h1, ?_, h3⟩
  rw [h2, filter_ne_self hn, hk, insertBeforeIn_split n hr]

/-- a child moved before a later one -/
theorem insert_right {d : Dom} {c n r : NodeId} {P M Q : List NodeId}
    (hk : d.kids c = P ++ n :: (M ++ r :: Q)) (hd : (d.kids c).Nodup) :
    ∃ d', d.insertBefore c n (some r) = some d' ∧ d'.kids c = P ++ M ++ n :: r :: Q ∧
      ∀ x, x ≠ c → d'.kids x = (d.kids x).filter (· != n) := by
  have hmem : r ∈ d.kids c := by rw [hk]; simp
  rw [hk] at hd
  have hne : r ≠ n := by
    intro e; subst e; simp [List.nodup_append] at hd
  obtain ⟨d', h1, h2, h3⟩ := insertBefore_kids (n := n) hmem hne
  refine ⟨d', h1, ?_, h3⟩
  have hP : n ∉ P := by
    intro h; rw [List.nodup_append] at hd; exact hd.2.2 n h n (by simp) rfl
  have hMQ : n ∉ M ++ r :: Q := by
    rw [List.nodup_append, List.nodup_cons] at hd; exact hd.2.1.1
  have hr : r ∉ P ++ M := by
    intro h
    rw [show P ++ n :: (M ++ r :: Q) = P ++ ([n] ++ M) ++ (r :: Q) by simp, List.nodup_append] at hd
    exact hd.2.2 r (by simp at h ⊢; rcases h with h | h <;> simp [h]) r (by simp) rfl
  rw [h2, hk, List.filter_append, List.filter_cons, filter_ne_self hP, filter_ne_self hMQ]
  simp only [bne_self_eq_false, Bool.false_eq_true, if_false]
  rw [← List.append_assoc, insertBeforeIn_split n hr]

/-- a child moved before an earlier one -/
theorem insert_left {d : Dom} {c n r : NodeId} {P M Q : List NodeId}
    (hk : d.kids c = P ++ r :: (M ++ n :: Q)) (hd : (d.kids c).Nodup) :
    ∃ d', d.insertBefore c n (some r) = some d' ∧ d'.kids c = P ++ n :: r :: (M ++ Q) ∧
      ∀ x, x ≠ c → d'.kids x = (d.kids x).filter (· != n) := by
  have hmem : r ∈ d.kids c := by rw [hk]; simp
  rw [hk] at hd
  have hne : r ≠ n := by
    intro e; subst e; simp [List.nodup_append] at hd
  obtain ⟨d', h1, h2, h3⟩ := insertBefore_kids (n := n) hmem hne
  refine ⟨d', h1, ?_, h3⟩
  have hr : r ∉ P := by
    intro h; rw [List.nodup_append] at hd; exact hd.2.2 r h r (by simp) rfl
  have e : P ++ r :: (M ++ n :: Q) = (P ++ r :: M) ++ n :: Q := by simp
  rw [e] at hd
  have hP : n ∉ P ++ r :: M := by
    intro h; rw [List.nodup_append] at hd; exact hd.2.2 n h n (by simp) rfl
  have hQ : n ∉ Q := by
    rw [List.nodup_append, List.nodup_cons] at hd; exact hd.2.1.1
  rw [h2, hk, e, List.filter_append, List.filter_cons, filter_ne_self hP, filter_ne_self hQ]
  simp only [bne_self_eq_false, Bool.false_eq_true, if_false]
  rw [show P ++ r :: M ++ Q = P ++ r :: (M ++ Q) by simp, insertBeforeIn_split n hr]

/-- nodes outside a block keep their place -/
def Frame (d d' : Dom) (c : NodeId) (block : List NodeId) : Prop :=
  ∀ x, x ≠ c → d'.kids x = (d.kids x).filter (fun y => !block.contains y)

theorem filter_filter_ne (n : NodeId) (block l : List NodeId) :
    (l.filter (· != n)).filter (fun y => !block.contains y)
      = l.filter (fun y => !(n :: block).contains y) := by
  rw [List.filter_filter]
  congr 1
  funext y
  simp only [List.contains_cons]
  cases h : (y == n) <;> simp_all [bne]

/-- a block moved before a later child -/
theorem moveLoop_right {c r stop : NodeId} (block : List NodeId) :
    ∀ (fuel : Nat) (d : Dom) (A B1 dn B2 : List NodeId) (node : NodeId) (rest : List NodeId),
    block = node :: rest → d.kids c = A ++ block ++ B1 ++ dn ++ r :: B2 → (d.kids c).Nodup →
    block.getLast? = some stop → block.length ≤ fuel →
    ∃ d', moveLoop c c stop (some r) fuel d node = some d' ∧
      d'.kids c = A ++ B1 ++ dn ++ block ++ r :: B2 ∧ Frame d d' c block := by
  induction block with
  | nil => intro fuel d A B1 dn B2 node rest h; simp at h
  | cons n block ih =>
    intro fuel d A B1 dn B2 node rest hb hk hd hl hf
    obtain ⟨rfl, rfl⟩ : n = node ∧ block = rest := by simpa using hb
    cases fuel with
    | zero => simp at hf
    | succ fuel =>
      have hA : n ∉ A := by
        intro h; rw [hk] at hd; simp only [List.append_assoc, List.cons_append] at hd
        rw [List.nodup_append] at hd; exact hd.2.2 n h n (by simp) rfl
      have hk' : d.kids c = A ++ n :: ((block ++ B1 ++ dn) ++ r :: B2) := by rw [hk]; simp
      obtain ⟨d1, h1, h2, h3⟩ := insert_right hk' hd
      have hnext : nextIn n (d.kids c) = ((block ++ B1 ++ dn) ++ r :: B2).head? := by
        rw [hk', nextIn_split hA]
      simp only [moveLoop, h1, hnext, bind, Option.bind, pure]
      cases block with
      | nil =>
        simp only [List.getLast?_singleton, Option.some.injEq] at hl
        rw [if_pos hl]
        refine ⟨d1, rfl, by rw [h2]; simp, ?_⟩
        intro x hx
        rw [h3 x hx]
        congr 1; funext y; simp only [List.contains_cons, List.contains_nil, Bool.or_false, bne]
      | cons m block =>
        have hne : n ≠ stop := by
          intro e
          have : stop ∈ m :: block := by
            rw [List.getLast?_cons_cons] at hl
            exact List.mem_of_getLast? hl
          rw [hk', List.nodup_append, List.nodup_cons] at hd
          exact hd.2.1.1 (by
            rw [e]
            exact List.mem_append_left _ (List.mem_append_left _ (List.mem_append_left _ this)))
        rw [if_neg hne]
        simp only [List.cons_append, List.head?_cons]
        have hd1 : (d1.kids c).Nodup := by
          rw [h2]; rw [hk'] at hd
          refine (List.Perm.nodup_iff ?_).1 hd
          have : List.Perm (n :: (m :: block ++ B1 ++ dn ++ r :: B2)) (m :: block ++ B1 ++ dn ++ n :: r :: B2) :=
            List.perm_middle.symm
          simpa using this.append_left A
        obtain ⟨d', h4, h5, h6⟩ := ih fuel d1 A B1 (dn ++ [n]) B2 m block rfl (by rw [h2]; simp) hd1
          (by rw [List.getLast?_cons_cons] at hl; exact hl) (by simp at hf ⊢; omega)
        refine ⟨d', h4, by rw [h5]; simp, ?_⟩
        intro x hx
        rw [h6 x hx, h3 x hx, filter_filter_ne]

/-- a block moved before an earlier child -/
theorem moveLoop_left {c r stop : NodeId} (block : List NodeId) :
    ∀ (fuel : Nat) (d : Dom) (A1 dn A2 B : List NodeId) (node : NodeId) (rest : List NodeId),
    block = node :: rest → d.kids c = A1 ++ dn ++ r :: (A2 ++ block ++ B) → (d.kids c).Nodup →
    block.getLast? = some stop → block.length ≤ fuel →
    ∃ d', moveLoop c c stop (some r) fuel d node = some d' ∧
      d'.kids c = A1 ++ dn ++ block ++ r :: (A2 ++ B) ∧ Frame d d' c block := by
  induction block with
  | nil => intro fuel d A B1 dn B2 node rest h; simp at h
  | cons n block ih =>
    intro fuel d A1 dn A2 B node rest hb hk hd hl hf
    obtain ⟨rfl, rfl⟩ : n = node ∧ block = rest := by simpa using hb
    cases fuel with
    | zero => simp at hf
    | succ fuel =>
      have hk' : d.kids c = (A1 ++ dn) ++ r :: (A2 ++ n :: (block ++ B)) := by rw [hk]; simp
      have hk2 : d.kids c = (A1 ++ dn ++ r :: A2) ++ n :: (block ++ B) := by rw [hk]; simp
      have hA : n ∉ A1 ++ dn ++ r :: A2 := by
        intro h; rw [hk2] at hd
        rw [List.nodup_append] at hd; exact hd.2.2 n h n (by simp) rfl
      obtain ⟨d1, h1, h2, h3⟩ := insert_left hk' hd
      have hnext : nextIn n (d.kids c) = (block ++ B).head? := by
        rw [hk2, nextIn_split hA]
      simp only [moveLoop, h1, hnext, bind, Option.bind, pure]
      cases block with
      | nil =>
        simp only [List.getLast?_singleton, Option.some.injEq] at hl
        rw [if_pos hl]
        refine ⟨d1, rfl, by rw [h2]; simp, ?_⟩
        intro x hx
        rw [h3 x hx]
        congr 1; funext y; simp only [List.contains_cons, List.contains_nil, Bool.or_false, bne]
      | cons m block =>
        have hne : n ≠ stop := by
          intro e
          have : stop ∈ m :: block := by
            rw [List.getLast?_cons_cons] at hl
            exact List.mem_of_getLast? hl
          rw [hk2, List.nodup_append, List.nodup_cons] at hd
          exact hd.2.1.1 (by rw [e]; simp at this ⊢; rcases this with h | h <;> simp [h])
        rw [if_neg hne]
        simp only [List.cons_append, List.head?_cons]
        have hd1 : (d1.kids c).Nodup := by
          rw [h2]; rw [hk'] at hd
          refine (List.Perm.nodup_iff ?_).1 hd
          have : List.Perm ((r :: A2) ++ n :: (m :: block ++ B)) (n :: ((r :: A2) ++ (m :: block ++ B))) :=
            List.perm_middle
          simpa using this.append_left (A1 ++ dn)
        obtain ⟨d', h4, h5, h6⟩ := ih fuel d1 A1 (dn ++ [n]) A2 B m block rfl (by rw [h2]; simp) hd1
          (by rw [List.getLast?_cons_cons] at hl; exact hl) (by simp at hf ⊢; omega)
        refine ⟨d', h4, by rw [h5]; simp, ?_⟩
        intro x hx
        rw [h6 x hx, h3 x hx, filter_filter_ne]

/-- a block moved to the end of another node -/
theorem moveLoop_out {src dst stop : NodeId} (hsd : src ≠ dst) (block : List NodeId) :
    ∀ (fuel : Nat) (d : Dom) (A B : List NodeId) (node : NodeId) (rest : List NodeId),
    block = node :: rest → d.kids src = A ++ block ++ B → (d.kids src).Nodup →
    (∀ n ∈ block, n ∉ d.kids dst) →
    block.getLast? = some stop → block.length ≤ fuel →
    ∃ d', moveLoop src dst stop none fuel d node = some d' ∧
      d'.kids dst = d.kids dst ++ block ∧ Frame d d' dst block := by
  induction block with
  | nil => intro fuel d A B node rest h; simp at h
  | cons n block ih =>
    intro fuel d A B node rest hb hk hd hdst hl hf
    obtain ⟨rfl, rfl⟩ : n = node ∧ block = rest := by simpa using hb
    cases fuel with
    | zero => simp at hf
    | succ fuel =>
      have hk2 : d.kids src = A ++ n :: (block ++ B) := by rw [hk]; simp
      have hA : n ∉ A := by
        intro h; rw [hk2] at hd
        rw [List.nodup_append] at hd; exact hd.2.2 n h n (by simp) rfl
      have hB : n ∉ block ++ B := by
        rw [hk2] at hd
        rw [List.nodup_append, List.nodup_cons] at hd; exact hd.2.1.1
      have hnext : nextIn n (d.kids src) = (block ++ B).head? := by
        rw [hk2, nextIn_split hA]
      obtain ⟨d1, h1, h2, h3⟩ : ∃ d1, d.insertBefore dst n none = some d1 ∧
          d1.kids dst = d.kids dst ++ [n] ∧ ∀ x, x ≠ dst → d1.kids x = (d.kids x).filter (· != n) := by
        refine ⟨_, rfl, ?_, ?_⟩
        · simp only [if_pos, Dom.detach]
          rw [filter_ne_self (hdst n (by simp))]
        · intro x hx
          simp only [if_neg hx, Dom.detach]
      simp only [moveLoop, h1, hnext, bind, Option.bind, pure]
      cases block with
      | nil =>
        simp only [List.getLast?_singleton, Option.some.injEq] at hl
        rw [if_pos hl]
        refine ⟨d1, rfl, h2, ?_⟩
        intro x hx
        rw [h3 x hx]
        congr 1; funext y; simp only [List.contains_cons, List.contains_nil, Bool.or_false, bne]
      | cons m block =>
        have hne : n ≠ stop := by
          intro e
          have : stop ∈ m :: block := by
            rw [List.getLast?_cons_cons] at hl
            exact List.mem_of_getLast? hl
          exact hB (by rw [e]; simp at this ⊢; rcases this with h | h <;> simp [h])
        rw [if_neg hne]
        simp only [List.cons_append, List.head?_cons]
        have hk1 : d1.kids src = A ++ (m :: block) ++ B := by
          rw [h3 src hsd, hk2, List.filter_append, List.filter_cons, filter_ne_self hA, filter_ne_self hB]
          simp
        have hd1 : (d1.kids src).Nodup := by
          rw [h3 src hsd]; exact hd.filter _
        obtain ⟨d', h4, h5, h6⟩ := ih fuel d1 A B m block rfl hk1 hd1
          (by
            intro y hy hy'
            rw [h2, List.mem_append, List.mem_singleton] at hy'
            rcases hy' with h | h
            · exact hdst y (by simp at hy ⊢; rcases hy with h | h <;> simp [h]) h
            · subst h; exact hB (by simp at hy ⊢; rcases hy with h | h <;> simp [h]))
          (by rw [List.getLast?_cons_cons] at hl; exact hl) (by simp at hf ⊢; omega)
        refine ⟨d', h4, by rw [h5, h2]; simp, ?_⟩
        intro x hx
        rw [h6 x hx, h3 x hx, filter_filter_ne]

end Verif.Lists
