import Verif.Model.OptiganHttp
import Verif.Props.Samplers

/-!
# Requests to Optigan as they are sent (C129)
-/

namespace Sawatabi.Props

open Sawatabi.Http

variable {β : Type} {p : Physical}

/-! ## Specification -/

/-- A server's reading of strings of bytes. -/
structure Reader (β : Type) where
  loads : β → Option Json
  gunzip : β → β

/-- The reader undoes the encodings. -/
def Reader.Undoes (r : Reader β) (k : Codec β) : Prop := (∀ j, r.loads (k.dumps j) = some j) ∧ ∀ b, r.gunzip (k.gzip b) = b

/-- The content of a request, decompressed if the headers say so. -/
def Reader.content (r : Reader β) (q : Request β) : Option Json :=
  if ("Content-Encoding", "gzip") ∈ q.headers then r.loads (r.gunzip q.body) else r.loads q.body

/-- A JSON object with exactly one entry for a key. -/
def Entry (j : Json) (k : String) (v : Json) : Prop := ∃ l, j = .obj l ∧ ∀ w, (k, w) ∈ l ↔ w = v

/-- A JSON object without an entry for a key. -/
def NoEntry (j : Json) (k : String) : Prop := ∃ l, j = .obj l ∧ ∀ w, (k, w) ∉ l

/-- What a server takes from a request: who asks, and for what. -/
structure Understood (r : Reader β) (q : Request β) (e t : String) (n timeout : Json) (poly : List (Nat × Nat × ℚ)) (d : Bool) :
    Prop where
  url : q.url = e
  token : ∀ v, ("Authorization", v) ∈ q.headers ↔ v = "Bearer " ++ t
  content : ∃ j, r.content q = some j ∧ Entry j "num_unit_steps" n ∧ Entry j "timeout" timeout ∧
    Entry j "polynomial" (.arr (poly.map fun x => .arr [.num x.1, .num x.2.1, .num x.2.2])) ∧
    (d = true → Entry j "outputs" (.obj [("duplicate", .bool true), ("num_outputs", .num 0)])) ∧ (d = false → NoEntry j "outputs")

/-- A file has access data under `api`. -/
def InFile (read : String → Except Err Yaml) (fmt : List (String × Yaml) → String) (f e t : String) : Prop :=
  ∃ top api ye yt, read f = .ok (.map top) ∧ dget top "api" = some (.map api) ∧ dget api "endpoint" = some ye ∧
    dget api "token" = some yt ∧ ye.text fmt = e ∧ yt.text fmt = t

/-- Both endpoint and token are given to the constructor, and not empty. -/
def BothGiven (endpoint token : Option String) : Prop := ∃ e t, endpoint = some e ∧ token = some t ∧ e ≠ "" ∧ t ≠ ""

/-- The configuration file that a solver keeps: the given one, else the one in the home directory if it was there. -/
def ConfigFile (home : String) (found : String → Bool) (config : Option String) (f : String) : Prop :=
  (config = some f ∧ f ≠ "") ∨ ((config = none ∨ config = some "") ∧ found f = true ∧ f = home ++ "/.optigan.yml")

/-- Where endpoint and token come from. -/
def Source (home : String) (found : String → Bool) (read : String → Except Err Yaml) (fmt : List (String × Yaml) → String)
    (config endpoint token : Option String) (e t : String) : Prop :=
  (endpoint = some e ∧ token = some t ∧ e ≠ "" ∧ t ≠ "") ∨
  (¬ BothGiven endpoint token ∧ ∃ f, ConfigFile home found config f ∧ InFile read fmt f e t)

/-! ## Access data -/

theorem truthyStr_iff {s : Option String} : truthyStr s = true ↔ ∃ x, s = some x ∧ x ≠ "" := by
  cases s <;> simp [truthyStr]

theorem bothGiven_iff {e t : Option String} : (truthyStr e && truthyStr t) = true ↔ BothGiven e t := by
  rw [Bool.and_eq_true, truthyStr_iff, truthyStr_iff]
  unfold BothGiven
  constructor
  · rintro ⟨⟨a, h1, h2⟩, b, h3, h4⟩; exact ⟨a, b, h1, h3, h2, h4⟩
  · rintro ⟨a, b, h1, h3, h2, h4⟩; exact ⟨⟨a, h1, h2⟩, b, h3, h4⟩

theorem configFile_iff {home : String} {found : String → Bool} {config endpoint token : Option String} {f : String} :
    ((Account.init home found config endpoint token).configFilename = some f ∧ f ≠ "") ↔ ConfigFile home found config f := by
  unfold Account.init ConfigFile
  by_cases hc : truthyStr config = true
  · obtain ⟨x, rfl, hx⟩ := truthyStr_iff.mp hc
    simp only [hc, if_true]
    constructor
    · exact Or.inl
    · rintro (h | ⟨h | h, -⟩)
      · exact h
      · cases h
      · cases h; exact absurd rfl hx
  · have hc' : config = none ∨ config = some "" := by
      rcases config with _ | s
      · exact Or.inl rfl
      · by_cases hs : s = ""
        · exact Or.inr (by rw [hs])
        · exact absurd (truthyStr_iff.mpr ⟨s, rfl, hs⟩) hc
    have hne : home ++ "/.optigan.yml" ≠ "" := by
      intro h
      have := congrArg String.length h
      simp at this
    simp only [hc, Bool.false_eq_true, if_false]
    by_cases hf : found (home ++ "/.optigan.yml") = true
    · simp only [hf, if_true, Option.some.injEq]
      constructor
      · rintro ⟨rfl, h⟩; exact Or.inr ⟨hc', hf, rfl⟩
      · rintro (⟨h1, h2⟩ | ⟨_, h2, rfl⟩)
        · exact absurd (truthyStr_iff.mpr ⟨f, h1, h2⟩) hc
        · exact ⟨rfl, hne⟩
    · simp only [hf, Bool.false_eq_true, if_false]
      constructor
      · rintro ⟨h, _⟩; cases h
      · rintro (⟨h1, h2⟩ | ⟨_, h2, rfl⟩)
        · exact absurd (truthyStr_iff.mpr ⟨f, h1, h2⟩) hc
        · exact absurd h2 hf

theorem yaml_get_ok {y z : Yaml} {k : String} : y.get k = .ok z ↔ ∃ l, y = .map l ∧ dget l k = some z := by
  cases y with
  | leaf s => simp [Yaml.get]
  | map l =>
    unfold Yaml.get
    cases h : dget l k <;> simp [h]

theorem source_iff {home : String} {found : String → Bool} {read : String → Except Err Yaml}
    {fmt : List (String × Yaml) → String} {config endpoint token : Option String} {e t : String} :
    (Account.init home found config endpoint token).access read fmt = .ok (e, t) ↔
      Source home found read fmt config endpoint token e t := by
  unfold Account.access Source
  have h1 : (Account.init home found config endpoint token).endpoint = endpoint := rfl
  have h2 : (Account.init home found config endpoint token).token = token := rfl
  rw [h1, h2]
  by_cases hb : (truthyStr endpoint && truthyStr token) = true
  · rw [if_pos hb]
    obtain ⟨a, b, rfl, rfl, ha, hb'⟩ := bothGiven_iff.mp hb
    constructor
    · intro h; simp only [Option.getD_some, Except.ok.injEq, Prod.mk.injEq] at h
      obtain ⟨rfl, rfl⟩ := h
      exact Or.inl ⟨rfl, rfl, ha, hb'⟩
    · rintro (⟨h, h', _, _⟩ | ⟨h, _⟩)
      · cases h; cases h'; rfl
      · exact absurd ⟨a, b, rfl, rfl, ha, hb'⟩ h
  · rw [if_neg hb]
    have hng : ¬ BothGiven endpoint token := fun h => hb (bothGiven_iff.mpr h)
    have hl : ¬ (endpoint = some e ∧ token = some t ∧ e ≠ "" ∧ t ≠ "") := fun ⟨h, h', h'', h'''⟩ => hng ⟨e, t, h, h', h'', h'''⟩
    simp only [hl, false_or, hng, not_false_eq_true, true_and]
    by_cases hc : truthyStr (Account.init home found config endpoint token).configFilename = true
    · obtain ⟨f, hf, hne⟩ := truthyStr_iff.mp hc
      rw [if_pos hc, hf, Option.getD_some]
      have hcf : ∀ g, ConfigFile home found config g ↔ g = f := by
        intro g
        rw [← configFile_iff (endpoint := endpoint) (token := token), hf]
        constructor
        · rintro ⟨h, _⟩; cases h; rfl
        · rintro rfl; exact ⟨rfl, hne⟩
      simp only [hcf, exists_eq_left]
      unfold InFile
      cases hr : read f with
      | error x => constructor
                   · intro h; cases h
                   · rintro ⟨_, _, _, _, h, _⟩; cases h
      | ok y =>
        constructor
        · intro h
          simp only [bind, Except.bind, pure, Except.pure] at h
          cases ha : y.get "api" with
          | error x => rw [ha] at h; cases h
          | ok api =>
            rw [ha] at h
            simp only at h
            cases he : api.get "endpoint" with
            | error x => rw [he] at h; cases h
            | ok ye =>
              rw [he] at h
              simp only at h
              cases ht : api.get "token" with
              | error x => rw [ht] at h; cases h
              | ok yt =>
                rw [ht] at h
                simp only [Except.ok.injEq, Prod.mk.injEq] at h
                obtain ⟨top, rfl, ha'⟩ := yaml_get_ok.mp ha
                obtain ⟨l, rfl, he'⟩ := yaml_get_ok.mp he
                obtain ⟨l', hl', ht'⟩ := yaml_get_ok.mp ht
                cases hl'
                exact ⟨top, l, ye, yt, rfl, ha', he', ht', h.1, h.2⟩
        · rintro ⟨top, l, ye, yt, h, ha, he, ht, rfl, rfl⟩
          cases h
          simp [Yaml.get, ha, he, ht, bind, Except.bind, pure, Except.pure]
    · rw [if_neg hc]
      constructor
      · intro h; cases h
      · rintro ⟨f, hf, _⟩
        have := configFile_iff (endpoint := endpoint) (token := token) |>.mpr hf
        exact absurd (truthyStr_iff.mpr ⟨f, this.1, this.2⟩) hc

/-! ## The request -/

theorem request_understood {r : Reader β} {k : Codec β} (hr : r.Undoes k) (e t : String) (n timeout : Json)
    (poly : List (Nat × Nat × ℚ)) (d g g' : Bool) :
    Understood r (request k e t (payload n timeout poly d) g g') e t n timeout poly d := by
  have hcontent : r.content (request k e t (payload n timeout poly d) g g') = some (payload n timeout poly d) := by
    unfold Reader.content request
    cases g <;> cases g' <;> simp [dset, hr.1, hr.2]
  refine ⟨?_, ?_, payload n timeout poly d, hcontent, ?_⟩
  · cases g <;> cases g' <;> rfl
  · intro v
    unfold request
    cases g <;> cases g' <;> simp [dset]
  · unfold payload Entry NoEntry
    cases d <;> simp

/-- What becomes of an answer. -/
def finish (p : Physical) (a : Response) : Except Err (List (Sample × ℚ)) :=
  if a.status ≠ 200 then .error .valueError else do
    let result ← a.json
    let rows ← result.get "spins" >>= Json.elements
    let spins ← rows.mapM fun row => row.elements >>= fun l => l.mapM Json.toSpin
    let energies ← result.get "energies" >>= Json.elements >>= fun l => l.mapM Json.toEnergy
    if (spins.map fun x => decode p x).length ≠ energies.length then .error .valueError
    else .ok ((spins.map fun x => decode p x).zip energies)

/-- The request that is sent with the access data `e`, `t`. -/
theorem http_sent {k : Codec β} {read : String → Except Err Yaml} {fmt : List (String × Yaml) → String} {c : Account}
    {server : Request β → Response} {n timeout : Json} {d g g' : Bool} {poly : List (Nat × Nat × ℚ)} {e t : String}
    (hne : ¬ Empty p) (hq : p.mtype = .qubo) (hpoly : p.toPolynomial = .ok poly) (hc : c.access read fmt = .ok (e, t))
    (log : List (Request β)) :
    (Http.solve k read fmt c server p n timeout d g g').run log =
      match finish p (server (request k e t (payload n timeout poly d) g g')) with
      | .ok res => .ok res (log ++ [request k e t (payload n timeout poly d) g g'])
      | .error x => .error x (log ++ [request k e t (payload n timeout poly d) g g']) := by
  have he : p.isEmptyModel = false := by
    cases hb : p.isEmptyModel with
    | false => rfl
    | true => exact absurd (empty_iff.mp hb) hne
  have hm : ¬ p.mtype = .ising := by rw [hq]; decide
  unfold Http.solve finish
  simp only [he, Bool.false_eq_true, if_false, Py.run_bind, hm, hpoly, hc, Py.run_liftE, Py.run_modify]
  generalize server (request k e t (payload n timeout poly d) g g') = a
  by_cases hs : a.status = 200
  · simp only [hs, ne_eq, not_true_eq_false, if_false, Py.run_bind, Py.run_liftE]
    cases a.json with
    | error x => rfl
    | ok result =>
      have hok : ∀ {γ δ : Type} (a : γ) (f : γ → Except Err δ), (Except.ok a >>= f) = f a := fun _ _ => rfl
      have herr : ∀ {γ δ : Type} (x : Err) (f : γ → Except Err δ), (Except.error x >>= f) = .error x := fun _ _ => rfl
      rw [hok]
      cases hrows : (result.get "spins" >>= Json.elements) with
      | error x => simp only [hrows, herr]
      | ok rows =>
        simp only [hok]
        cases hsp : (rows.mapM fun row => row.elements >>= fun l => l.mapM Json.toSpin) with
        | error x => simp only [hrows, hsp, herr]
        | ok spins =>
          simp only [hok]
          cases hen : (result.get "energies" >>= Json.elements >>= fun l => l.mapM Json.toEnergy) with
          | error x => simp only [hrows, hsp, hen, herr]
          | ok energies =>
            simp only [hok]
            by_cases hl : (spins.map fun x => decode p x).length = energies.length
            · simp only [hrows, hsp, hen, hl, not_true_eq_false, if_false, Py.run_pure]
            · simp only [hrows, hsp, hen, hl, not_false_eq_true, if_true, Py.run_bind, Py.run_throw]
  · simp only [hs, ne_eq, not_false_eq_true, if_true, Py.run_bind, Py.run_throw]

/-- Nothing is sent: the model is empty or of the wrong type, its polynomial cannot be made, or there is no access data. -/
theorem http_unsent {k : Codec β} {read : String → Except Err Yaml} {fmt : List (String × Yaml) → String} {c : Account}
    {server : Request β → Response} {n timeout : Json} {d g g' : Bool} (log : List (Request β)) :
    ((Empty p ∨ p.mtype = .ising) → (Http.solve k read fmt c server p n timeout d g g').run log = .error .valueError log) ∧
    (¬ Empty p → p.mtype = .qubo → ∀ x, p.toPolynomial = .error x →
      (Http.solve k read fmt c server p n timeout d g g').run log = .error x log) ∧
    (¬ Empty p → p.mtype = .qubo → ∀ poly, p.toPolynomial = .ok poly → ∀ x, c.access read fmt = .error x →
      (Http.solve k read fmt c server p n timeout d g g').run log = .error x log) := by
  have he : ¬ Empty p → p.isEmptyModel = false := fun hne => by
    cases hb : p.isEmptyModel with
    | false => rfl
    | true => exact absurd (empty_iff.mp hb) hne
  refine ⟨?_, ?_, ?_⟩
  · intro h
    unfold Http.solve
    rcases h with h | h
    · simp only [empty_iff.mpr h, if_true, Py.run_bind, Py.run_throw]
    · cases hb : p.isEmptyModel <;> simp only [if_true, Bool.false_eq_true, if_false, Py.run_bind, h, Py.run_throw]
  · intro hne hq x hp
    have hm : ¬ p.mtype = .ising := by rw [hq]; decide
    unfold Http.solve
    simp only [he hne, Bool.false_eq_true, if_false, Py.run_bind, hm, hp, Py.run_liftE]
  · intro hne hq poly hp x hx
    have hm : ¬ p.mtype = .ising := by rw [hq]; decide
    unfold Http.solve
    simp only [he hne, Bool.false_eq_true, if_false, Py.run_bind, hm, hp, hx, Py.run_liftE]

/-! ## C129 -/

variable {k : Codec β} {r : Reader β} {home : String} {found : String → Bool} {read : String → Except Err Yaml}
  {fmt : List (String × Yaml) → String} {config endpoint token : Option String} {server : Request β → Response}
  {n timeout : Json} {d g g' : Bool} {log : List (Request β)}

/-- However `solve` ends, it has sent at most one request: to the endpoint and with the token of one and the same source, and a server
that reads the request understands the parameters and the polynomial of the model, compressed or not. -/
theorem C129_sent (hr : r.Undoes k) :
    ((Http.solve k read fmt (Account.init home found config endpoint token) server p n timeout d g g').run log).state = log ∨
    ∃ q e t poly, ((Http.solve k read fmt (Account.init home found config endpoint token) server p n timeout d g g').run log).state =
        log ++ [q] ∧ Source home found read fmt config endpoint token e t ∧ p.toPolynomial = .ok poly ∧
      Understood r q e t n timeout poly d := by
  by_cases h1 : Empty p ∨ p.mtype = .ising
  · exact Or.inl (by rw [(http_unsent log).1 h1]; rfl)
  · have hne : ¬ Empty p := fun h => h1 (Or.inl h)
    have hq : p.mtype = .qubo := by
      cases hm : p.mtype with
      | ising => exact absurd (Or.inr hm) h1
      | qubo => rfl
    cases hp : p.toPolynomial with
    | error x => exact Or.inl (by rw [(http_unsent log).2.1 hne hq x hp]; rfl)
    | ok poly =>
      cases hc : (Account.init home found config endpoint token).access read fmt with
      | error x => exact Or.inl (by rw [(http_unsent log).2.2 hne hq poly hp x hc]; rfl)
      | ok et =>
        obtain ⟨e, t⟩ := et
        refine Or.inr ⟨_, e, t, poly, ?_, source_iff.mp hc, rfl, request_understood hr e t n timeout poly d g g'⟩
        rw [http_sent hne hq hp hc]
        split <;> rfl

/-- A request is sent exactly if the model is a QUBO model with interactions whose variables have indices, and there is access data. -/
theorem C129_sent_iff :
    ((Http.solve k read fmt (Account.init home found config endpoint token) server p n timeout d g g').run log).state ≠ log ↔
    ¬ Empty p ∧ p.mtype = .qubo ∧ (∃ poly, p.toPolynomial = .ok poly) ∧
      ∃ e t, Source home found read fmt config endpoint token e t := by
  constructor
  · intro h
    by_cases h1 : Empty p ∨ p.mtype = .ising
    · exact absurd (by rw [(http_unsent log).1 h1]; rfl) h
    · have hne : ¬ Empty p := fun h => h1 (Or.inl h)
      have hq : p.mtype = .qubo := by
        cases hm : p.mtype with
        | ising => exact absurd (Or.inr hm) h1
        | qubo => rfl
      cases hp : p.toPolynomial with
      | error x => exact absurd (by rw [(http_unsent log).2.1 hne hq x hp]; rfl) h
      | ok poly =>
        cases hc : (Account.init home found config endpoint token).access read fmt with
        | error x => exact absurd (by rw [(http_unsent log).2.2 hne hq poly hp x hc]; rfl) h
        | ok et => exact ⟨hne, hq, ⟨poly, rfl⟩, et.1, et.2, source_iff.mp hc⟩
  · rintro ⟨hne, hq, ⟨poly, hp⟩, e, t, hs⟩ h
    rw [http_sent hne hq hp (source_iff.mpr hs)] at h
    have : ∀ q : Request β, log ++ [q] ≠ log := fun q hq => by simpa using congrArg List.length hq
    split at h <;> exact this _ h

/-- With neither access data nor a configuration file, UnboundLocalError; with a file, what reading it raises, or KeyError or
TypeError if it lacks the data. -/
theorem C129_no_access (hne : ¬ Empty p) (hq : p.mtype = .qubo) {poly : List (Nat × Nat × ℚ)} (hp : p.toPolynomial = .ok poly)
    (hb : ¬ BothGiven endpoint token) :
    ((¬ ∃ f, ConfigFile home found config f) →
      (Http.solve k read fmt (Account.init home found config endpoint token) server p n timeout d g g').run log =
        .error .unboundLocalError log) ∧
    (∀ f, ConfigFile home found config f → ∀ x, read f = .error x →
      (Http.solve k read fmt (Account.init home found config endpoint token) server p n timeout d g g').run log = .error x log) ∧
    (∀ f, ConfigFile home found config f → ∀ y, read f = .ok y → (¬ ∃ e t, InFile read fmt f e t) → ∃ x, (x = .keyError ∨ x = .typeError) ∧
      (Http.solve k read fmt (Account.init home found config endpoint token) server p n timeout d g g').run log = .error x log) := by
  have hb' : ¬ (truthyStr endpoint && truthyStr token) = true := fun h => hb (bothGiven_iff.mp h)
  have hfile : ∀ f, ConfigFile home found config f → (Account.init home found config endpoint token).access read fmt =
      (do
        let config ← read f
        let endpoint ← (← config.get "api").get "endpoint"
        let token ← (← config.get "api").get "token"
        return (endpoint.text fmt, token.text fmt)) := by
    intro f hf
    obtain ⟨h1, h2⟩ := configFile_iff (endpoint := endpoint) (token := token) |>.mpr hf
    unfold Account.access
    rw [if_neg (show ¬ (truthyStr (Account.init home found config endpoint token).endpoint &&
      truthyStr (Account.init home found config endpoint token).token) = true from hb'),
      if_pos (truthyStr_iff.mpr ⟨f, h1, h2⟩), h1, Option.getD_some]
  refine ⟨?_, ?_, ?_⟩
  · intro hn
    refine (http_unsent log).2.2 hne hq poly hp _ ?_
    unfold Account.access
    rw [if_neg (show ¬ (truthyStr (Account.init home found config endpoint token).endpoint &&
      truthyStr (Account.init home found config endpoint token).token) = true from hb'), if_neg]
    intro ht
    obtain ⟨f, h1, h2⟩ := truthyStr_iff.mp ht
    exact hn ⟨f, configFile_iff.mp ⟨h1, h2⟩⟩
  · intro f hf x hx
    refine (http_unsent log).2.2 hne hq poly hp _ ?_
    rw [hfile f hf, hx]
    rfl
  · intro f hf y hy hn
    have hget : ∀ (y : Yaml) (s : String) (x : Err), y.get s = .error x → x = .keyError ∨ x = .typeError := by
      intro y s x h
      cases y with
      | leaf _ => cases h; exact Or.inr rfl
      | map l =>
        simp only [Yaml.get] at h
        cases hd : dget l s with
        | some _ => rw [hd] at h; cases h
        | none => rw [hd] at h; cases h; exact Or.inl rfl
    cases hc : (Account.init home found config endpoint token).access read fmt with
    | ok et =>
      rcases source_iff.mp (show _ = Except.ok (et.1, et.2) from hc) with ⟨h1, h2, h3, h4⟩ | ⟨_, f', hf', hin⟩
      · exact absurd ⟨_, _, h1, h2, h3, h4⟩ hb
      · have h1 := (configFile_iff (endpoint := endpoint) (token := token) |>.mpr hf).1
        have h2 := (configFile_iff (endpoint := endpoint) (token := token) |>.mpr hf').1
        rw [h1] at h2
        cases h2
        exact absurd ⟨_, _, hin⟩ hn
    | error x =>
      refine ⟨x, ?_, (http_unsent log).2.2 hne hq poly hp x hc⟩
      rw [hfile f hf, hy] at hc
      simp only [bind, Except.bind, pure, Except.pure] at hc
      cases ha : y.get "api" with
      | error z => rw [ha] at hc; cases hc; exact hget _ _ _ ha
      | ok api =>
        rw [ha] at hc
        simp only at hc
        cases he : api.get "endpoint" with
        | error z => rw [he] at hc; cases hc; exact hget _ _ _ he
        | ok ye =>
          rw [he] at hc
          simp only at hc
          cases ht : api.get "token" with
          | error z => rw [ht] at hc; cases hc; exact hget _ _ _ ht
          | ok yt => rw [ht] at hc; cases hc

/-- The server answers by what it understands of a request. -/
def ByMeaning (r : Reader β) (server : Request β → Response) : Prop := ∀ q q' e t n timeout poly d,
  Understood r q e t n timeout poly d → Understood r q' e t n timeout poly d → server q = server q'

/-- Compression changes nothing: with a server that answers by what it understands, `solve` returns or raises the same. -/
theorem C129_compression (hr : r.Undoes k) (hs : ByMeaning r server) (g₁ g₂ h₁ h₂ : Bool) (log₁ log₂ : List (Request β)) (c : Account) :
    (∀ res, (∃ l, (Http.solve k read fmt c server p n timeout d g₁ h₁).run log₁ = .ok res l) ↔
      ∃ l, (Http.solve k read fmt c server p n timeout d g₂ h₂).run log₂ = .ok res l) ∧
    (∀ x, (∃ l, (Http.solve k read fmt c server p n timeout d g₁ h₁).run log₁ = .error x l) ↔
      ∃ l, (Http.solve k read fmt c server p n timeout d g₂ h₂).run log₂ = .error x l) := by
  have key : ∀ x, ((∃ l, (Http.solve k read fmt c server p n timeout d g₁ h₁).run log₁ = .error x l) ∧
      ∃ l, (Http.solve k read fmt c server p n timeout d g₂ h₂).run log₂ = .error x l) →
      (∀ res, (∃ l, (Http.solve k read fmt c server p n timeout d g₁ h₁).run log₁ = .ok res l) ↔
      ∃ l, (Http.solve k read fmt c server p n timeout d g₂ h₂).run log₂ = .ok res l) ∧
    (∀ x, (∃ l, (Http.solve k read fmt c server p n timeout d g₁ h₁).run log₁ = .error x l) ↔
      ∃ l, (Http.solve k read fmt c server p n timeout d g₂ h₂).run log₂ = .error x l) := by
    rintro x ⟨⟨l, h⟩, l', h'⟩
    rw [h, h']
    simp
  by_cases h1 : Empty p ∨ p.mtype = .ising
  · exact key _ ⟨⟨_, (http_unsent log₁).1 h1⟩, _, (http_unsent log₂).1 h1⟩
  · have hne : ¬ Empty p := fun h => h1 (Or.inl h)
    have hq : p.mtype = .qubo := by
      cases hm : p.mtype with
      | ising => exact absurd (Or.inr hm) h1
      | qubo => rfl
    cases hp : p.toPolynomial with
    | error x => exact key x ⟨⟨_, (http_unsent log₁).2.1 hne hq x hp⟩, _, (http_unsent log₂).2.1 hne hq x hp⟩
    | ok poly =>
      cases hc : c.access read fmt with
      | error x => exact key x ⟨⟨_, (http_unsent log₁).2.2 hne hq poly hp x hc⟩, _, (http_unsent log₂).2.2 hne hq poly hp x hc⟩
      | ok et =>
        rw [http_sent hne hq hp (show _ = Except.ok (et.1, et.2) from hc), http_sent hne hq hp (show _ = Except.ok (et.1, et.2) from hc),
          hs _ _ _ _ _ _ _ _ (request_understood hr et.1 et.2 n timeout poly d g₁ h₁)
            (request_understood hr et.1 et.2 n timeout poly d g₂ h₂)]
        cases finish p (server (request k et.1 et.2 (payload n timeout poly d) g₂ h₂)) <;> simp

/-- A JSON answer that says what an answer of `Model/Samplers.lean` says. -/
def AnswersAs (a : Response) (o : OptiganResponse) : Prop := a.status = o.status ∧ (o.status = 200 → ∃ j, a.json = .ok j ∧
  Entry j "spins" (.arr (o.spins.map fun x => .arr (x.map fun b : ℤ => Json.num b))) ∧ Entry j "energies" (.arr (o.energies.map .num)))

/-- A server that understands requests and answers as `abstract` does. -/
def Implements (r : Reader β) (server : Request β → Response) (abstract : OptiganRequest → OptiganResponse) : Prop :=
  ∀ q e t (n timeout : ℤ) poly d, Understood r q e t (.num n) (.num timeout) poly d →
    AnswersAs (server q) (abstract ⟨e, t, n, timeout, poly, d⟩)

theorem mapM_map_ok {γ δ : Type} (f : γ → δ) (h : δ → Except Err γ) (hf : ∀ x, h (f x) = .ok x) (l : List γ) :
    (l.map f).mapM h = .ok l := by
  induction l with
  | nil => rfl
  | cons x l ih => simp [List.mapM_cons, hf, ih, bind, Except.bind, pure, Except.pure]

theorem get_of_entry {j : Json} {s : String} {v : Json} (h : Entry j s v) : j.get s = .ok v := by
  obtain ⟨l, rfl, hl⟩ := h
  unfold Json.get
  cases hd : dget l s with
  | none => exact absurd (List.mem_map_of_mem (f := (·.1)) ((hl v).mpr rfl)) ((dget_eq_none_iff l s).mp hd)
  | some w => simp only [hd, (hl w).mp (dget_mem hd)]

theorem finish_answer {a : Response} {o : OptiganResponse} (h : AnswersAs a o) :
    finish p a = if o.status ≠ 200 then .error .valueError
      else if o.spins.length ≠ o.energies.length then .error .valueError
      else .ok ((o.spins.map fun x => decode p x).zip o.energies) := by
  unfold finish
  rw [h.1]
  by_cases hs : o.status = 200
  · obtain ⟨j, hj, h1, h2⟩ := h.2 hs
    have hspin : ∀ b : ℤ, Json.toSpin (.num b) = .ok b := fun b => by simp [Json.toSpin]
    have hrow : ∀ x : List ℤ, ((Json.arr (x.map fun b : ℤ => Json.num b)).elements >>= fun l => l.mapM Json.toSpin) = .ok x := fun x =>
      mapM_map_ok _ _ hspin x
    have hrows := mapM_map_ok (fun x : List ℤ => Json.arr (x.map fun b : ℤ => Json.num b))
      (fun row => row.elements >>= fun l => l.mapM Json.toSpin) hrow o.spins
    have hen := mapM_map_ok Json.num Json.toEnergy (fun _ => rfl) o.energies
    simp only [hs, ne_eq, not_true_eq_false, if_false, hj, get_of_entry h1, get_of_entry h2, bind, Except.bind, Json.elements] at *
    rw [hrows]
    simp only [hen, List.length_map]
  · simp only [hs, ne_eq, not_false_eq_true, if_true]

/-- With such a server, `solve` returns and raises what the solver of `Model/Samplers.lean` does with the abstract one, so that C58
and C127 hold of what is sent and received. -/
theorem C129_refines (hr : r.Undoes k) {abstract : OptiganRequest → OptiganResponse} (hs : Implements r server abstract)
    {e t : String} (hsrc : Source home found read fmt config endpoint token e t) (n timeout : ℤ) (log : List (Request β))
    (log' : List OptiganRequest) :
    (∀ res, (∃ l, (Http.solve k read fmt (Account.init home found config endpoint token) server p (.num n) (.num timeout) d g g').run log =
        .ok res l) ↔ ∃ l, (optiganSolve ⟨none, none, some (e, t)⟩ abstract p n timeout d).run log' = .ok res l) ∧
    (∀ x, (∃ l, (Http.solve k read fmt (Account.init home found config endpoint token) server p (.num n) (.num timeout) d g g').run log =
        .error x l) ↔ ∃ l, (optiganSolve ⟨none, none, some (e, t)⟩ abstract p n timeout d).run log' = .error x l) := by
  have hacc : OptiganSolver.access ⟨none, none, some (e, t)⟩ = .ok (e, t) := rfl
  have key : ∀ x l l', (Http.solve k read fmt (Account.init home found config endpoint token) server p (.num n) (.num timeout) d g g').run log =
        .error x l → (optiganSolve ⟨none, none, some (e, t)⟩ abstract p n timeout d).run log' = .error x l' →
      (∀ res, (∃ l, (Http.solve k read fmt (Account.init home found config endpoint token) server p (.num n) (.num timeout) d g g').run log =
        .ok res l) ↔ ∃ l, (optiganSolve ⟨none, none, some (e, t)⟩ abstract p n timeout d).run log' = .ok res l) ∧
      (∀ x, (∃ l, (Http.solve k read fmt (Account.init home found config endpoint token) server p (.num n) (.num timeout) d g g').run log =
        .error x l) ↔ ∃ l, (optiganSolve ⟨none, none, some (e, t)⟩ abstract p n timeout d).run log' = .error x l) := by
    intro x l l' h h'
    rw [h, h']
    simp
  by_cases hem : Empty p
  · exact key _ _ _ ((http_unsent log).1 (Or.inl hem)) ((C56_empty hem).2.2.2.1 _ _ _ _ _ _)
  cases hm : p.mtype with
  | ising => exact key _ _ _ ((http_unsent log).1 (Or.inr hm)) (C58_ising _ _ hm _ _ _ _)
  | qubo =>
    have he : p.isEmptyModel = false := by
      cases hb : p.isEmptyModel with
      | false => rfl
      | true => exact absurd (empty_iff.mp hb) hem
    have hm' : ¬ p.mtype = .ising := by rw [hm]; decide
    cases hp : p.toPolynomial with
    | error x =>
      refine key x log log' ((http_unsent log).2.1 hem hm x hp) ?_
      unfold optiganSolve
      simp only [he, Bool.false_eq_true, if_false, Py.run_bind, hm', hp, Py.run_liftE]
    | ok poly =>
      rw [http_sent hem hm hp (source_iff.mpr hsrc),
        finish_answer (hs _ _ _ _ _ _ _ (request_understood hr e t (.num n) (.num timeout) poly d g g'))]
      unfold optiganSolve
      simp only [he, Bool.false_eq_true, if_false, Py.run_bind, hm', hp, Py.run_liftE, hacc, Py.run_modify]
      by_cases h1 : (abstract ⟨e, t, n, timeout, poly, d⟩).status = 200
      · by_cases h2 : (abstract ⟨e, t, n, timeout, poly, d⟩).spins.length = (abstract ⟨e, t, n, timeout, poly, d⟩).energies.length
        · simp [h1, h2, Py.run_pure]
        · simp [h1, h2, Py.run_bind, Py.run_throw]
      · simp [h1, Py.run_bind, Py.run_throw]

/-! ## Examples -/

/-- A codec for the examples: the value itself, with the number of compressions. -/
def Ex.codec : Codec (Nat × Json) := ⟨fun j => (0, j), fun b => (b.1 + 1, b.2)⟩

/-- Its reader. -/
def Ex.reader : Reader (Nat × Json) := ⟨fun b => if b.1 = 0 then some b.2 else none, fun b => (b.1 - 1, b.2)⟩

theorem Ex.reader_undoes : Ex.reader.Undoes Ex.codec := ⟨fun _ => rfl, fun _ => rfl⟩

/-- A configuration file. -/
def Ex.yaml : Yaml := .map [("api", .map [("endpoint", .leaf "https://cloud"), ("token", .leaf "yours")])]

/-- An answer. -/
def Ex.answer : Response :=
  ⟨200, .ok (.obj [("energies", .arr [.num (-8)]), ("spins", .arr [.arr [.num 1, .num 1, .num 0]])])⟩

/-- The access data given to the constructor is not always used: with a token but no endpoint, the token of the configuration file
in the home directory is sent, without a warning. -/
theorem C129_given_refuted :
    ((Http.solve Ex.codec (fun _ => .ok Ex.yaml) (fun _ => "") (Account.init "/root" (fun _ => true) none none (some "mine"))
      (fun _ => Ex.answer) Ex.physQubo (.num 10) (.num 10000) false false false).run []).state.map (fun q => (q.url, q.headers)) =
    [("https://cloud", [("Authorization", "Bearer yours"), ("X-Accept", "application/json"),
      ("Content-Type", "application/json; charset=UTF-8")])] := by
  decide +kernel

/-- The examples satisfy the hypotheses: the model is sent, and the answer is an answer. -/
example : ¬ Empty Ex.physQubo ∧ Ex.physQubo.mtype = .qubo ∧ Ex.physQubo.toPolynomial.toOption.isSome = true ∧
    Source "/root" (fun _ => true) (fun _ => .ok Ex.yaml) (fun _ => "") none none (some "mine") "https://cloud" "yours" ∧
    ByMeaning Ex.reader (fun _ => Ex.answer) ∧ Implements Ex.reader (fun _ => Ex.answer) (fun _ => ⟨200, [[1, 1, 0]], [-8]⟩) := by
  refine ⟨by unfold Empty; decide +kernel, by decide +kernel, by decide +kernel, Or.inr ⟨?_, "/root/.optigan.yml", ?_, ?_⟩, ?_, ?_⟩
  · rintro ⟨e, _, h, _⟩; cases h
  · exact Or.inr ⟨Or.inl rfl, rfl, by decide +kernel⟩
  · exact ⟨_, _, _, _, rfl, rfl, rfl, rfl, rfl, rfl⟩
  · intro _ _ _ _ _ _ _ _ _ _; rfl
  · intro _ _ _ _ _ _ _ _
    exact ⟨rfl, fun _ => ⟨_, rfl, ⟨_, rfl, by simp⟩, ⟨_, rfl, by simp⟩⟩⟩

/-- Without access data. -/
example : ¬ BothGiven (some "https://cloud") none ∧ ¬ (∃ f, ConfigFile "/root" (fun _ => false) (some "") f) ∧
    ConfigFile "/root" (fun _ => false) (some "a.yml") "a.yml" ∧
    ¬ ∃ e t, InFile (fun _ => .ok (.map [("api", .leaf "x")])) (fun _ => "") "a.yml" e t := by
  refine ⟨?_, ?_, Or.inl ⟨rfl, by decide⟩, ?_⟩
  · rintro ⟨_, _, _, h, _⟩; cases h
  · rintro ⟨f, ⟨h, h'⟩ | ⟨_, h, _⟩⟩
    · cases h; exact h' rfl
    · cases h
  · rintro ⟨e, t, top, api, _, _, h, h', _⟩
    cases h
    cases h'

end Sawatabi.Props
