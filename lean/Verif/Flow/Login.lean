import Verif.Flow.Lang
/-!
# `examples/login-flow/src/lib.rs`

The program, function by function, and what it is supposed to do: a machine of stages (`Stage`), each with a page.
-/
namespace Verif.Flow.Login
open Verif.Flow

/-! ## The program -/

/-- `lib.rs:33-52` -/
def showLoginForm : Fut (String × String) :=
  .create fun username => .create fun password =>
  .put username .placeholder "Username" <| .put password .placeholder "Password" <|
  .create fun button =>
  .bind ((Fut.click button none).meanwhile
    (Fut.both (.text "username is 'user' and password is 'asdf'" false : Fut Unit)
      (Fut.both (.node .input username false .pending : Fut Unit)
        (Fut.both (.node .input password false .pending : Fut Unit)
          (.node .button button false (.text "Login" false) : Fut Unit))))) fun _ =>
  .get username .value fun u => .get password .value fun p => .pure (u, p)

/-- `lib.rs:54-74`; `none` for `Err(())` -/
def login (username password : String) : Fut (Option String) :=
  .timeout 1500 fun t =>
  .bind ((Fut.elapsed t).meanwhile (.text "logging in" false : Fut Unit)) fun _ =>
  if username = "user" ∧ password = "asdf" then .pure (some "secrettoken")
  else
    .create fun retry =>
    .bind ((Fut.click retry none).meanwhile
      (Fut.both (.text "incorrect username/password" false : Fut Unit)
        (.node .button retry false (.text "Retry" false) : Fut Unit))) fun _ =>
    .pure none

/-- `lib.rs:77-84` -/
def fetchList (_token : String) : Fut (Option (List Int)) :=
  .timeout 1500 fun t =>
  .bind ((Fut.elapsed t).meanwhile (.text "fetching list of available data" false : Fut Unit)) fun _ =>
  .pure (some [1, 2, 3, 4])

/-- One of the futures in `lib.rs:90-97`. -/
def choice (id : Int) : Fut Int :=
  .create fun btn =>
  .bind ((Fut.click btn none).meanwhile
    (.node .button btn false (.text s!"data with id {id}" false) : Fut Unit)) fun _ =>
  .pure id

/-- `lib.rs:86-102` -/
def showList (list : List Int) : Fut Int :=
  .await (.race (.pendAfter (.text "which one do you want?" false : Fut Unit)) (Fut.raceAll (list.map choice)))

/-- `lib.rs:104-111` -/
def getData (_token : String) (id : Int) : Fut (Option String) :=
  .timeout 1500 fun t =>
  .bind ((Fut.elapsed t).meanwhile (.text "fetching data" false : Fut Unit)) fun _ =>
  .pure (some s!"data id={id}: blah blah blah")

/-- One round of the loop, `lib.rs:22-27`. -/
def attempt : Fut (Option String) :=
  .bind showLoginForm fun credentials => .await (login credentials.1 credentials.2)

/-- After the loop, `lib.rs:28-30`. -/
def afterLogin (token : String) : Fut (Option String) :=
  .bind (fetchList token) fun
  | none => .pure none
  | some list => .bind (showList list) fun id => .await (getData token id)

/-- `lib.rs:20-31` -/
def connector : Fut (Option String) := .bind (.loop attempt attempt) afterLogin

/-- `lib.rs:15-17` -/
def conclude : Option String → Fut Unit
  | some data => .await (.text s!"the connector returned: {data}" false)
  | none => .await (.text "the connector errored :(" false)

/-- `lib.rs:13-18` -/
def app : Fut Unit := .bind connector conclude

/-! ## Specification -/

/-- The stages; the number is the time that is still left. -/
inductive Stage
  /-- not started -/
  | start
  /-- the form, with what has been typed -/
  | form (username password : String)
  | checking (username password : String) (left : Nat)
  | refused
  | fetching (left : Nat)
  | choosing
  | loading (id : Int) (left : Nat)
  | done (id : Int)

/-- What the page shows. -/
def Stage.page : Stage → List View
  | .start => []
  | .form u p =>
    [.text "username is 'user' and password is 'asdf'", .elem .input "Username" u [], .elem .input "Password" p [],
      .elem .button "" "" [.text "Login"]]
  | .checking _ _ _ => [.text "logging in"]
  | .refused => [.text "incorrect username/password", .elem .button "" "" [.text "Retry"]]
  | .fetching _ => [.text "fetching list of available data"]
  | .choosing =>
    [.text "which one do you want?", .elem .button "" "" [.text "data with id 1"], .elem .button "" "" [.text "data with id 2"],
      .elem .button "" "" [.text "data with id 3"], .elem .button "" "" [.text "data with id 4"]]
  | .loading _ _ => [.text "fetching data"]
  | .done id => [.text s!"the connector returned: data id={id}: blah blah blah"]

/-- How one stage follows another. -/
def Stage.step : Stage → Event → Stage
  | .start, .poll => .form "" ""
  | .form _ p, .type 0 s => .form s p
  | .form u _, .type 1 s => .form u s
  | .form u p, .click 0 => .checking u p 1500
  | .checking u p left, .advance ms => .checking u p (left - ms)
  | .checking u p 0, .poll => if u = "user" ∧ p = "asdf" then .fetching 1500 else .refused
  | .refused, .click 0 => .form "" ""
  | .fetching left, .advance ms => .fetching (left - ms)
  | .fetching 0, .poll => .choosing
  | .choosing, .click 0 => .loading 1 1500
  | .choosing, .click 1 => .loading 2 1500
  | .choosing, .click 2 => .loading 3 1500
  | .choosing, .click 3 => .loading 4 1500
  | .loading id left, .advance ms => .loading id (left - ms)
  | .loading id 0, .poll => .done id
  | s, _ => s

def Stage.run (s : Stage) (es : List Event) : Stage := es.foldl Stage.step s

end Verif.Flow.Login
