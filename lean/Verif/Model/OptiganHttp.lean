import Verif.Model.Samplers

/-!
# Requests to Optigan as they are sent

Models /repo/sawatabi/solver/optigan_solver.py lines 29-112 again, with what `Model/Samplers.lean` leaves out: the configuration
file, the JSON payload, the headers, the compression and the JSON answer. The state of a call is the list of requests sent.
-/

namespace Sawatabi.Http

/-- A JSON value. Numbers are exact. (optigan_solver.py:71-80, 102) -/
inductive Json where
  | null
  | bool (b : Bool)
  | num (q : ℚ)
  | str (s : String)
  | arr (l : List Json)
  | obj (l : List (String × Json))

/-- What `yaml.load` gives: a mapping, or something else, of which only the text `str` gives matters. (optigan_solver.py:43-45, 64-65) -/
inductive Yaml where
  | map (l : List (String × Yaml))
  | leaf (text : String)

/-- Subscription of a loaded YAML value with a string: KeyError if a mapping lacks the key, TypeError for lists, numbers, strings
and `None` (optigan_solver.py:64-65). -/
def Yaml.get : Yaml → String → Except Err Yaml
  | .map l, k => match dget l k with
    | some y => .ok y
    | none => .error .keyError
  | .leaf _, _ => .error .typeError

/-- The text of a value in a URL or a header (`format` and `requests` apply `str`; optigan_solver.py:68, 92, 96). `fmt` is `str` of a
dictionary. -/
def Yaml.text (fmt : List (String × Yaml) → String) : Yaml → String
  | .map l => fmt l
  | .leaf s => s

/-- An `OptiganSolver` object (optigan_solver.py:30-40). -/
structure Account where
  configFilename : Option String
  endpoint : Option String
  token : Option String
  deriving DecidableEq, Repr

/-- `OptiganSolver.__init__` (optigan_solver.py:30-40). `home` is `os.path.expanduser("~")`, `found` is `os.path.exists`. -/
def Account.init (home : String) (found : String → Bool) (config endpoint token : Option String) : Account :=
  let homeConfig := home ++ "/.optigan.yml"
  { configFilename := if truthyStr config then config else if found homeConfig then some homeConfig else none
    endpoint := endpoint
    token := token }

/-- The choice of endpoint and token (optigan_solver.py:42-45, 59-65). `read` opens and parses a file at the time of the call; it
may raise anything. -/
def Account.access (read : String → Except Err Yaml) (fmt : List (String × Yaml) → String) (c : Account) :
    Except Err (String × String) :=
  if truthyStr c.endpoint && truthyStr c.token then .ok (c.endpoint.getD "", c.token.getD "")
  else if truthyStr c.configFilename then do
    let config ← read (c.configFilename.getD "")
    let endpoint ← (← config.get "api").get "endpoint"
    let token ← (← config.get "api").get "token"
    return (endpoint.text fmt, token.text fmt)
  else .error .unboundLocalError

/-- A request as it is sent. `β` is the type of strings of bytes. (optigan_solver.py:92, 96) -/
structure Request (β : Type) where
  url : String
  headers : List (String × String)
  body : β
  deriving DecidableEq, Repr

/-- An answer: the status and what `response.json()` gives or raises. (optigan_solver.py:98-102) -/
structure Response where
  status : Int
  json : Except Err Json

/-- The payload (optigan_solver.py:71-80). `num_unit_steps` and `timeout` are any JSON values. -/
def payload (numUnitSteps timeout : Json) (polynomial : List (Nat × Nat × ℚ)) (duplicate : Bool) : Json :=
  .obj ([("num_unit_steps", numUnitSteps), ("timeout", timeout),
    ("polynomial", .arr (polynomial.map fun e => .arr [.num e.1, .num e.2.1, .num e.2.2]))] ++
    if duplicate then [("outputs", .obj [("duplicate", .bool true), ("num_outputs", .num 0)])] else [])

/-- `json.dumps(...).encode("utf-8")` and `GzipFile.write`, which are arbitrary functions here (the time stamp in a gzip file is part of
the function). `requests` encodes `json=` with `json.dumps` as well. (optigan_solver.py:88-92) -/
structure Codec (β : Type) where
  dumps : Json → β
  gzip : β → β

/-- The request (optigan_solver.py:67-96). The headers that `requests` adds by itself are left out. -/
def request {β : Type} (k : Codec β) (endpoint token : String) (body : Json) (gzipRequest gzipResponse : Bool) : Request β :=
  let headers := [("Authorization", "Bearer " ++ token), ("X-Accept", "application/json")]
  let headers := if gzipResponse then dset headers "Accept-Encoding" "gzip" else headers
  if gzipRequest then
    ⟨endpoint, dset headers "Content-Encoding" "gzip", k.gzip (k.dumps body)⟩
  else
    ⟨endpoint, dset headers "Content-Type" "application/json; charset=UTF-8", k.dumps body⟩

/-- `result[key]` (optigan_solver.py:106, 109). -/
def Json.get : Json → String → Except Err Json
  | .obj l, k => match dget l k with
    | some y => .ok y
    | none => .error .keyError
  | _, _ => .error .typeError

/-- A spin of an answer. Simplification: other values than integers raise (dimod may round some). (optigan_solver.py:106-107) -/
def Json.toSpin : Json → Except Err ℤ
  | .num q => if q.den = 1 then .ok q.num else .error .valueError
  | _ => .error .typeError

/-- An energy of an answer. (optigan_solver.py:109) -/
def Json.toEnergy : Json → Except Err ℚ
  | .num q => .ok q
  | _ => .error .typeError

/-- The elements of an array. Simplification: other values raise (strings and dictionaries would be iterated). (optigan_solver.py:106, 109) -/
def Json.elements : Json → Except Err (List Json)
  | .arr l => .ok l
  | _ => .error .typeError

/-- `OptiganSolver.solve` (optigan_solver.py:47-112) without the aggregation of equal samples (`Model/Aggregate.lean`). -/
def solve {β : Type} (k : Codec β) (read : String → Except Err Yaml) (fmt : List (String × Yaml) → String) (c : Account)
    (server : Request β → Response) (p : Physical) (numUnitSteps timeout : Json) (duplicate gzipRequest gzipResponse : Bool) :
    Py (List (Request β)) (List (Sample × ℚ)) := do
  if p.isEmptyModel then throw .valueError
  if p.mtype = .ising then throw .valueError
  let polynomial ← liftE p.toPolynomial
  let (endpoint, token) ← liftE (c.access read fmt)
  let req := request k endpoint token (payload numUnitSteps timeout polynomial duplicate) gzipRequest gzipResponse
  modify fun log => log ++ [req]
  let r := server req
  if r.status ≠ 200 then throw .valueError
  let result ← liftE r.json
  let rows ← liftE (result.get "spins" >>= Json.elements)
  let spins ← liftE (rows.mapM fun row => row.elements >>= fun l => l.mapM Json.toSpin)
  let samples := spins.map fun x => decode p x
  let energies ← liftE (result.get "energies" >>= Json.elements >>= fun l => l.mapM Json.toEnergy)
  if samples.length ≠ energies.length then throw .valueError
  return samples.zip energies

end Sawatabi.Http
