import Verif.Live.React
import Verif.Live.Full
import Verif.Live.Every
/-!
# C73: the temperature converter

`examples/web-simple-examples/src/temp_converter.rs` as two components of a whole app (`Verif.Live.ReactSpec`), each of
which sets the input that the other waits for. The elements 0 and 1 of the page are `input_c` and `input_f`. Left out:
the texts beside the inputs. What `parse::<f32>`, the arithmetic, `round` and `to_string` compute is arbitrary.
-/
namespace Verif.Apps
open Verif.Live
open XBow.Data (Data Layer)

namespace Converter

/-- The two loops (11-17 and 18-24). The event `input` is number 0; `f` and `g` are what they compute from a text that is
a number. -/
def toF (f : List Char → Option (List Char)) : Reaction := ⟨0, 0, 1, f⟩
def toC (g : List Char → Option (List Char)) : Reaction := ⟨1, 0, 0, g⟩

end Converter

section Page
variable {R P : Reaction} {h l a b : List (PageOp × PageOut)} {s s0 : Page} {k k' j : Nat} {st : ReactState}

/-- What is common to the cases. -/
theorem no_writes (hio : P.out = R.input) (hoi : P.input = R.out) (h0 : Hist pageSource Page.init h s0)
    (hh : Hist pageSource Page.init (h ++ l) s) (r2 : P.Runs h (.waiting j)) (s2 : P.Steps h (.waiting j) l st)
    (t2 : Told pageSource Page.init h s0 j) (c : s0.calls = []) (hed : ∀ e ∈ l, ∀ y v n, e.1 ≠ .edit R.out y v n)
    (hd : ∀ e ∈ l, ∀ q n, e.1 = .ev (.deliver q n) → q.target ≠ R.out) : ∀ e ∈ l, ∀ v, e.1 ≠ .set R.input v := by
  have := (bland_steps s2 hh h0 (good_runs r2 h0) (told_silent t2 c) (by rw [hoi]; exact hd) false
    (fun _ => by rw [hoi]; exact hed) (fun h => by cases h)).2
  rwa [hio] at this

theorem edited_page (hio : P.out = R.input) (hoi : P.input = R.out) (h0 : Hist pageSource Page.init h s0)
    (hh : Hist pageSource Page.init (h ++ l) s) (r1 : R.Runs h (.waiting k)) (s1 : R.Steps h (.waiting k) l (.waiting k'))
    (t1' : Told pageSource Page.init (h ++ l) s k') (c' : s.calls = [])
    (r2 : P.Runs h (.waiting j)) (s2 : P.Steps h (.waiting j) l st) (t2 : Told pageSource Page.init h s0 j)
    (c : s0.calls = []) (hed : ∀ e ∈ l, ∀ y v n, e.1 ≠ .edit R.out y v n)
    (hd : ∀ e ∈ l, ∀ q n, e.1 = .ev (.deliver q n) → q.target ≠ R.out) {x : PageOp × PageOut} {y : Nat} {v : List Char}
    {n : Events.Ev} (hl : l = a ++ x :: b) (hx : x.1 = .edit R.input y v n)
    (hb : ∀ e ∈ b, ∀ y v n, e.1 ≠ .edit R.input y v n) :
    s.value R.input = v ∧ ∀ z, R.f v = some z → s.value R.out = z := by
  have hw := no_writes hio hoi h0 hh r2 s2 t2 c hed hd
  have hbw : ∀ e ∈ b, written R.input e.1 = none := fun e he =>
    written_none (hb e he) (hw e (by rw [hl]; simp [he]))
  have hv : ∀ t, s.value t = (lastOf t (b.map (·.1))).getD ((written t x.1).getD (valueOf t (h ++ a))) := by
    intro t
    rw [hist_value hh, hl, show h ++ (a ++ x :: b) = ((h ++ a) ++ [x]) ++ b by simp, valueOf_append, valueOf_snoc]
  refine ⟨by rw [hv, lastOf_unwritten hbw, hx]; simp [written], fun z hz => ?_⟩
  rw [hl] at s1
  obtain ⟨st1, q1, q2⟩ := steps_split s1
  obtain ⟨st2, q3⟩ := steps_head q2
  obtain ⟨k1, rfl, hy⟩ := edit_waiting q3 (steps_not_absent q1 (by simp)) hx (busy_no_edit q1 (by simp))
  cases hy rfl
  have hhl : Hist pageSource Page.init ((h ++ a) ++ (x :: b)) s := by rw [List.append_assoc, ← hl]; exact hh
  obtain ⟨sa, ha, -⟩ := hist_append hhl
  have key := after_steps q2 rfl hhl ⟨n, hx⟩ (good_steps q1 ha (good_runs r1 h0)) hz
    (fun e he => ⟨hbw e he, hed e (by rw [hl]; simp [he])⟩)
  rcases key with key | key
  · rw [hv, key]; rfl
  · rw [List.append_assoc, ← hl] at key
    exact (told_not t1' c' key).elim

theorem ignored_page (h0 : Hist pageSource Page.init h s0)
    (hh : Hist pageSource Page.init (h ++ l) s) (r1 : R.Runs h (.waiting k)) (s1 : R.Steps h (.waiting k) l st)
    (t1 : Told pageSource Page.init h s0 k) (c : s0.calls = []) (hset : ∀ e ∈ l, ∀ v, e.1 ≠ .set R.input v)
    (hed : ∀ e ∈ l, ∀ y v n, e.1 ≠ .edit R.out y v n)
    (hd : ∀ e ∈ l, ∀ q n, e.1 = .ev (.deliver q n) → q.target ≠ R.input)
    (hn : ∀ e ∈ l, ∀ y v n, e.1 = .edit R.input y v n → R.f v = none) : s.value R.out = s0.value R.out := by
  have hw := (bland_steps s1 hh h0 (good_runs r1 h0) (told_silent t1 c) hd true (fun h => by cases h)
    (fun _ e he v hv => by
      cases ho : e.1 with
      | edit t y v' n =>
        rw [ho, written] at hv
        split at hv
        · next ht => cases hv; exact hn e he y v n (by rw [ho, ht])
        · cases hv
      | set t v' =>
        rw [ho, written] at hv
        split at hv
        · next ht => exact (hset e he v' (by rw [ho, ht])).elim
        · cases hv
      | _ => rw [ho] at hv; cases hv)).2
  rw [hist_value hh, hist_value h0, valueOf_append, lastOf_unwritten fun e he => written_none (hed e he) (hw e he)]
  rfl

end Page

variable {D : Nat → Type} {V S O : Type} {hash : XBow.Path → BitVec 64} {enc : Layer → XBow.Seg}
  {cells : ∀ n, Cell.Sys (D n)} {data : Nat → Data} {es es' : List (Event (fullSource D hash enc) V S O)}
  {w1 w2 : World (fullSource D hash enc) V S O} {f g : List Char → Option (List Char)}

/-- One of the loops was waiting when the app was `w1`; since then `l` has happened to the page, and it is waiting again. -/
def Served (R : Reaction) (w1 w2 : World (fullSource D hash enc) V S O) (l : List (PageOp × PageOut)) : Prop :=
  ∃ k k' : Nat, R.Runs (ofPage w1 0) (.waiting k) ∧ R.Steps (ofPage w1 0) (.waiting k) l (.waiting k') ∧
    Awaited w1 ⟨.page 0, k⟩ ∧ Awaited w2 ⟨.page 0, k'⟩

/-- The app was idle when it was `w1` and is idle now that it is `w2`; the browser has no listeners to call. In the
meantime `l` has happened to the page. -/
structure BothIdle (w1 w2 : World (fullSource D hash enc) V S O) (l : List (PageOp × PageOut)) : Prop where
  before : Idle w1
  now : Idle w2
  called : (pageNow w1 0).calls = []
  called' : (pageNow w2 0).calls = []
  page : ofPage w2 0 = ofPage w1 0 ++ l

/-- The user has done nothing to the element `t`: they have not changed it, and no event has been fired at it. -/
def Untouched (t : Nat) (l : List (PageOp × PageOut)) : Prop :=
  (∀ e ∈ l, ∀ y v n, e.1 ≠ .edit t y v n) ∧ ∀ e ∈ l, ∀ q n, e.1 = .ev (.deliver q n) → q.target ≠ t

theorem served_page {R : Reaction} {l : List (PageOp × PageOut)} (h : run (init (start cells data)) es = some w1)
    (hm : ∃ t, .app (.mount t) ∈ es) (h' : run w1 es' = some w2) (hi : BothIdle w1 w2 l) (hR : Served R w1 w2 l) :
    ∃ k k' : Nat, R.Runs (ofPage w1 0) (.waiting k) ∧ R.Steps (ofPage w1 0) (.waiting k) l (.waiting k') ∧
      Told pageSource Page.init (ofPage w1 0) (pageNow w1 0) k ∧
      Told pageSource Page.init (ofPage w1 0 ++ l) (pageNow w2 0) k' := by
  obtain ⟨k, k', r1, s1, a1, a2⟩ := hR
  refine ⟨k, k', r1, s1, told_part (idle_not_woken h hm hi.before a1), ?_⟩
  rw [← hi.page]
  obtain ⟨t, hm⟩ := hm
  exact told_part (idle_not_woken (run_append h h') ⟨t, List.mem_append_left _ hm⟩ hi.now a2)

theorem told_hist {l : List (PageOp × PageOut)} {s : Page} {k : Nat} (h : Told pageSource Page.init l s k) :
    Hist pageSource Page.init l s := by
  obtain ⟨-, -, -, -, -, -, -, hh, -⟩ := h
  exact hh

/-- Two such components, one of which sets the input of the other. -/
theorem converts {R P : Reaction} (hio : P.out = R.input) (hoi : P.input = R.out) {l : List (PageOp × PageOut)}
    (h : run (init (start cells data)) es = some w1) (hm : ∃ t, .app (.mount t) ∈ es) (h' : run w1 es' = some w2)
    (hi : BothIdle w1 w2 l) (hR : Served R w1 w2 l) (hP : Served P w1 w2 l) (hu : Untouched R.out l) :
    (∀ a x b y v n, l = a ++ x :: b → x.1 = .edit R.input y v n → (∀ e ∈ b, ∀ y v n, e.1 ≠ .edit R.input y v n) →
      (pageNow w2 0).value R.input = v ∧ ∀ z, R.f v = some z → (pageNow w2 0).value R.out = z) ∧
    ((∀ e ∈ l, ∀ q n, e.1 = .ev (.deliver q n) → q.target ≠ R.input) →
      (∀ e ∈ l, ∀ y v n, e.1 = .edit R.input y v n → R.f v = none) →
      (pageNow w2 0).value R.out = (pageNow w1 0).value R.out) := by
  obtain ⟨k, k', r1, s1, t1, t1'⟩ := served_page h hm h' hi hR
  obtain ⟨j, j', r2, s2, t2, t2'⟩ := served_page h hm h' hi hP
  have h0 := told_hist t1
  have hh := told_hist t1'
  exact ⟨fun a x b y v n hl hx hb => edited_page hio hoi h0 hh r1 s1 t1' hi.called' r2 s2 t2 hi.called hu.1 hu.2 hl hx hb,
    fun hd hn => ignored_page h0 hh r1 s1 t1 hi.called (no_writes hio hoi h0 hh r2 s2 t2 hi.called hu.1 hu.2) hu.1 hd hn⟩

/-- **C73.** If the user has changed the text of one input since the app was idle, and not the other, then when the app is
idle again the input still has the text that the user entered last, and the other what the program computes from it
if the text is a number. If none of the texts that the user has entered is a number, the other input is what it was. -/
theorem converter_celsius {l : List (PageOp × PageOut)} (h : run (init (start cells data)) es = some w1)
    (hm : ∃ t, .app (.mount t) ∈ es) (h' : run w1 es' = some w2) (hi : BothIdle w1 w2 l)
    (hF : Served (Converter.toF f) w1 w2 l) (hC : Served (Converter.toC g) w1 w2 l) (hu : Untouched 1 l) :
    (∀ a x b y v n, l = a ++ x :: b → x.1 = .edit 0 y v n → (∀ e ∈ b, ∀ y v n, e.1 ≠ .edit 0 y v n) →
      (pageNow w2 0).value 0 = v ∧ ∀ z, f v = some z → (pageNow w2 0).value 1 = z) ∧
    ((∀ e ∈ l, ∀ q n, e.1 = .ev (.deliver q n) → q.target ≠ 0) → (∀ e ∈ l, ∀ y v n, e.1 = .edit 0 y v n → f v = none) →
      (pageNow w2 0).value 1 = (pageNow w1 0).value 1) :=
  converts (R := Converter.toF f) (P := Converter.toC g) rfl rfl h hm h' hi hF hC hu

/-- **C73, the other direction.** -/
theorem converter_fahrenheit {l : List (PageOp × PageOut)} (h : run (init (start cells data)) es = some w1)
    (hm : ∃ t, .app (.mount t) ∈ es) (h' : run w1 es' = some w2) (hi : BothIdle w1 w2 l)
    (hF : Served (Converter.toF f) w1 w2 l) (hC : Served (Converter.toC g) w1 w2 l) (hu : Untouched 0 l) :
    (∀ a x b y v n, l = a ++ x :: b → x.1 = .edit 1 y v n → (∀ e ∈ b, ∀ y v n, e.1 ≠ .edit 1 y v n) →
      (pageNow w2 0).value 1 = v ∧ ∀ z, g v = some z → (pageNow w2 0).value 0 = z) ∧
    ((∀ e ∈ l, ∀ q n, e.1 = .ev (.deliver q n) → q.target ≠ 1) → (∀ e ∈ l, ∀ y v n, e.1 = .edit 1 y v n → g v = none) →
      (pageNow w2 0).value 0 = (pageNow w1 0).value 0) :=
  converts (R := Converter.toC g) (P := Converter.toF f) rfl rfl h hm h' hi hC hF hu

end Verif.Apps
