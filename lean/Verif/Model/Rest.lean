import Verif.Model.Log

/-
Model of diamondback/commons/rest_client.py.  Simplifications: `str.title` on ASCII; the values passed on to requests (authentication, headers, parameters, bodies, proxies, time limits)
are numbers, of which only the truth of `data` and `json` matters.  `requests.request` is a parameter: for each request it raises an exception or returns a response.
The requests made and the responses closed are recorded in order.
-/

namespace Verif

/-- A Python value which is only passed on: whether it is true, and which it is (rest_client.py:64-74, 98-102). -/
structure Val where
  truthy : Bool
  id : ℕ
  deriving DecidableEq

/-- A character which has case (rest_client.py:125, in `str.title`). -/
def isCased (c : Char) : Bool := ('a' ≤ c && c ≤ 'z') || ('A' ≤ c && c ≤ 'Z')

/-- `str.title`: a letter after a letter becomes lower case, any other letter upper case (rest_client.py:125). -/
def titleFrom : Bool → Text → Text
  | _, [] => []
  | after, c :: t => (if after then c.toLower else c.toUpper) :: titleFrom (isCased c) t

/-- `str.title` (rest_client.py:125). -/
def title (t : Text) : Text := titleFrom false t

/-- `str.strip("/")` (rest_client.py:83, 130). -/
def stripSlash (t : Text) : Text := ((t.dropWhile (· = '/')).reverse.dropWhile (· = '/')).reverse

/-- RestClient.METHOD (rest_client.py:49). -/
def restMethods : List Text := ["Delete".toList, "Get".toList, "Head".toList, "Options".toList, "Patch".toList, "Post".toList, "Put".toList]

/-- A RestClient; the URL may be None (rest_client.py:90-92). -/
structure RestClient where
  proxy : Val
  timeout : Val
  url : Option Text

/-- What is passed to requests.request (rest_client.py:134-144). -/
structure HttpRequest where
  method : Text
  url : Option Text
  params : Val
  data : Val
  headers : Val
  auth : Val
  json : Val
  proxies : Val
  timeout : Val
  deriving DecidableEq

/-- A response: which, and its status (rest_client.py:144-146). -/
structure HttpResponse where
  id : ℕ
  status : ℕ
  deriving DecidableEq

/-- What happens outside (rest_client.py:54, 134-145). -/
inductive NetEvent where
  | issue (r : HttpRequest)
  | close (r : HttpResponse)
  deriving DecidableEq

/-- The network (rest_client.py:54, 134-144). -/
abbrev Network := HttpRequest → Res HttpResponse

/-- None, as passed for the parameters which are not given (rest_client.py:98-102). -/
def Val.none : Val := { truthy := false, id := 0 }

/-- RestClient.__init__ (rest_client.py:86-92), with an empty dictionary and the default time limits. -/
def RestClient.new (dict limits : Val) : RestClient := { proxy := dict, timeout := limits, url := some "http://127.0.0.1:8080".toList }

/-- The setter of `url` (rest_client.py:80-84). -/
def RestClient.setUrl (c : RestClient) (url : Option Text) : RestClient :=
  match url with
  | .none => { c with url := .none }
  | some u => { c with url := some (if u = [] then u else stripSlash u) }

/-- RestClient.request (rest_client.py:94-146).  `raise_for_status` raises HTTPError for a status in [400, 600); the response is closed when the `with` block is left. -/
def RestClient.request (net : Network) (c : RestClient) (method api : Text) (auth header item data json : Val) : Res HttpResponse × List NetEvent :=
  if title method ∉ restMethods then (.error .valueError, [])
  else if data.truthy ∧ json.truthy then (.error .valueError, [])
  else
    let url : Res (Option Text) :=
      if stripSlash api = [] then .ok c.url
      else match c.url with
        | .none => .error .typeError
        | some u => .ok (some (u ++ ('/' :: stripSlash api)))
    match url with
    | .error e => (.error e, [])
    | .ok url =>
      let r : HttpRequest := { method := title method, url, params := item, data, headers := header, auth, json, proxies := c.proxy, timeout := c.timeout }
      match net r with
      | .error e => (.error e, [.issue r])
      | .ok v => (if 400 ≤ v.status ∧ v.status < 600 then .error .other else .ok v, [.issue r, .close v])

/-- The property `live` (rest_client.py:51-58): the response is not closed. -/
def RestClient.live (net : Network) (c : RestClient) : Bool × List NetEvent :=
  let r : HttpRequest := { method := "head".toList, url := c.url, params := .none, data := .none, headers := .none, auth := .none, json := .none, proxies := c.proxy, timeout := c.timeout }
  match net r with
  | .error _ => (false, [.issue r])
  | .ok _ => (true, [.issue r])

end Verif
