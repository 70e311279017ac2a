import Verif.Lemmas.Rest

/-
RestClient: C60, C61, C70.
-/

namespace Verif.Props

open Verif Verif.Spec

/-- C60: what `IsStripped` says determines the text: the specification of the address is not ambiguous. -/
theorem C60_unambiguous (s t t' : Text) (h : IsStripped s t) (h' : IsStripped s t') : t = t' := by
  rw [← strip_of_isStripped h, ← strip_of_isStripped h']

example : IsStripped "//a/b/".toList "a/b".toList := ⟨2, 1, by decide, by decide, by decide⟩

/-- C60: whatever the base assigned to `url` before the request, the address requested is the base without leading and trailing slashes, followed by one slash and the API without leading
and trailing slashes if that is not empty. -/
theorem C60_url (net : Network) (c : RestClient) (base method api : Text) (auth header item data json : Val) (r : HttpRequest)
    (h : NetEvent.issue r ∈ ((c.setUrl (some base)).request net method api auth header item data json).2) :
    ∃ w, r.url = some w ∧ IsAddress base api w := by
  unfold RestClient.request at h
  rw [setUrl_some] at h
  have done : ∀ r' : HttpRequest, r'.url = (if stripSlash api = [] then some (stripSlash base) else some (stripSlash base ++ ('/' :: stripSlash api))) →
      ∃ w, r'.url = some w ∧ IsAddress base api w := by
    intro r' e
    by_cases hp : stripSlash api = []
    · rw [if_pos hp] at e
      exact ⟨_, e, _, _, isStripped_strip base, isStripped_strip api, Or.inl ⟨hp, rfl⟩⟩
    · rw [if_neg hp] at e
      exact ⟨_, e, _, _, isStripped_strip base, isStripped_strip api, Or.inr ⟨hp, by simp⟩⟩
  split at h
  · simp at h
  split at h
  · simp at h
  by_cases hp : stripSlash api = []
  · simp only [hp, if_true] at h done
    split at h
    · simp at h; subst h; exact done _ rfl
    · simp at h; subst h; exact done _ rfl
  · simp only [hp, if_false] at h done
    split at h
    · simp at h; subst h; exact done _ rfl
    · simp at h; subst h; exact done _ rfl

example (net : Network) (v : Val) (h : ∀ r, net r = .error .other) :
    ∃ r, NetEvent.issue r ∈ (((RestClient.new v v).setUrl (some "http://host/".toList)).request net "get".toList "/a//b/".toList v v v .none .none).2
      ∧ r.url = some "http://host/a//b".toList := by
  refine ⟨⟨"Get".toList, some "http://host/a//b".toList, v, .none, v, v, .none, v, v⟩, ?_, rfl⟩
  have e1 : title "get".toList = "Get".toList := by decide
  have e2 : stripSlash "/a//b/".toList = "a//b".toList := by decide
  have e3 : stripSlash "http://host/".toList = "http://host".toList := by decide
  unfold RestClient.request
  rw [setUrl_some, e1, e2, e3, if_neg (by decide), if_neg (by decide)]
  simp [h, RestClient.new, RestClient.setUrl]

/-- C60: slashes added before or after the API, or before or after the base, change nothing: neither what is returned nor what is requested. -/
theorem C60_slashes (net : Network) (c : RestClient) (base method api : Text) (auth header item data json : Val) (i j k l : ℕ) :
    ((c.setUrl (some (List.replicate i '/' ++ base ++ List.replicate j '/'))).request net method (List.replicate k '/' ++ api ++ List.replicate l '/') auth header item data json)
      = ((c.setUrl (some base)).request net method api auth header item data json) := by
  have e : c.setUrl (some (List.replicate i '/' ++ base ++ List.replicate j '/')) = c.setUrl (some base) := by
    have h1 := setUrl_some c (List.replicate i '/' ++ base ++ List.replicate j '/')
    have h2 := setUrl_some c base
    rw [strip_pad] at h1
    have h3 : ∀ u, c.setUrl (some u) = { c with url := (c.setUrl (some u)).url } := fun u => rfl
    rw [h3, h3 base, h1, h2]
  rw [e]
  unfold RestClient.request
  rw [strip_pad]

example (net : Network) (c : RestClient) (v : Val) := C60_slashes net c "http://host".toList "get".toList "api".toList v v v v v 1 2 1 1

/-- C60: reading `url` and assigning it again changes nothing. -/
theorem C60_idempotent (c : RestClient) (url : Option Text) : (c.setUrl url).setUrl (c.setUrl url).url = c.setUrl url := by
  cases url with
  | none => rfl
  | some u =>
    have h3 : ∀ (c : RestClient) (u : Text), c.setUrl (some u) = { c with url := some (stripSlash u) } := by
      intro c u
      have := setUrl_some c u
      have e : c.setUrl (some u) = { c with url := (c.setUrl (some u)).url } := rfl
      rw [e, this]
    rw [h3 c u]
    simp only
    rw [h3]
    simp only [strip_strip]

example (c : RestClient) := C60_idempotent c (some "//host//".toList)

/-- C60: an instance on which `url` was never assigned behaves as one to which the address of port 8080 of the local host was. -/
theorem C60_default (dict limits : Val) (base : Text) (h : IsStripped base "http://127.0.0.1:8080".toList) : RestClient.new dict limits = (RestClient.new dict limits).setUrl (some base) := by
  have e := setUrl_some (RestClient.new dict limits) base
  rw [strip_of_isStripped h] at e
  unfold RestClient.setUrl at e ⊢
  unfold RestClient.new at e ⊢
  simp only at e ⊢
  rw [e]

example : IsStripped "http://127.0.0.1:8080/".toList "http://127.0.0.1:8080".toList := ⟨0, 1, by decide, by decide, by decide⟩

/-- C60: without a base, a request with an API raises TypeError before anything is requested. -/
theorem C60_none (net : Network) (c : RestClient) (method api : Text) (auth header item data json : Val) (hm : IsMethod method) (hb : ¬ (data.truthy ∧ json.truthy))
    (ha : ¬ IsStripped api []) :
    (c.setUrl none).request net method api auth header item data json = (.error .typeError, []) := by
  unfold RestClient.request
  rw [if_neg (by rw [not_not]; exact (isMethod_iff _).mp hm), if_neg hb]
  have : stripSlash api ≠ [] := fun h => ha (h ▸ isStripped_strip api)
  simp [this, RestClient.setUrl]

example : IsMethod "pOsT".toList ∧ ¬ IsStripped "a".toList [] := by
  refine ⟨⟨"post".toList, by decide, by unfold SameLetters; decide⟩, ?_⟩
  intro h
  have := strip_of_isStripped h
  revert this; decide

/-- C61: with an undocumented method, or with both bodies, a request raises ValueError and nothing is requested. -/
theorem C61_refused (net : Network) (c : RestClient) (method api : Text) (auth header item data json : Val) (h : ¬ IsMethod method ∨ (data.truthy ∧ json.truthy)) :
    c.request net method api auth header item data json = (.error .valueError, []) := by
  unfold RestClient.request
  by_cases hm : IsMethod method
  · rw [if_neg (by rw [not_not]; exact (isMethod_iff _).mp hm), if_pos (h.resolve_left (not_not.mpr hm))]
  · rw [if_pos (fun h => hm ((isMethod_iff _).mpr h))]

example : ¬ IsMethod "trace".toList ∧ ¬ IsMethod "get ".toList := by
  constructor <;> rw [isMethod_iff] <;> decide

/-- C61: otherwise exactly one request is issued, with the documented method and the arguments given, the proxies and time limits of the client.  If it fails, its exception is raised and there is
nothing to close.  If there is a response it is closed, once, after the request; a response with a status in [400, 600) raises, any other is returned. -/
theorem C61_once (net : Network) (c : RestClient) (method api : Text) (auth header item data json : Val) (hm : IsMethod method) (hb : ¬ (data.truthy ∧ json.truthy)) (hu : c.url ≠ none) :
    ∃ r : HttpRequest, SameLetters r.method method ∧ r.method ∈ restMethods ∧ r.params = item ∧ r.data = data ∧ r.headers = header ∧ r.auth = auth ∧ r.json = json
      ∧ r.proxies = c.proxy ∧ r.timeout = c.timeout
      ∧ (∀ e, net r = .error e → c.request net method api auth header item data json = (.error e, [.issue r]))
      ∧ (∀ v, net r = .ok v → (c.request net method api auth header item data json).2 = [.issue r, .close v]
          ∧ (400 ≤ v.status ∧ v.status ≤ 599 → (c.request net method api auth header item data json).1 = .error .other)
          ∧ (v.status < 400 ∨ 599 < v.status → (c.request net method api auth header item data json).1 = .ok v)) := by
  have hm' := (isMethod_iff _).mp hm
  obtain ⟨u, hu⟩ := Option.ne_none_iff_exists'.mp hu
  unfold RestClient.request
  rw [if_neg (not_not.mpr hm'), if_neg hb, hu]
  have done : ∀ (url : Res (Option Text)) (w : Option Text), url = .ok w → ∃ r : HttpRequest,
      SameLetters r.method method ∧ r.method ∈ restMethods ∧ r.params = item ∧ r.data = data ∧ r.headers = header ∧ r.auth = auth ∧ r.json = json
      ∧ r.proxies = c.proxy ∧ r.timeout = c.timeout ∧ r = { method := title method, url := w, params := item, data, headers := header, auth, json, proxies := c.proxy, timeout := c.timeout } := by
    intro url w _
    exact ⟨_, sameLetters_title method hm', hm', rfl, rfl, rfl, rfl, rfl, rfl, rfl, rfl⟩
  by_cases hp : stripSlash api = []
  · obtain ⟨r, h1, h2, h3, h4, h5, h6, h7, h8, h9, h10⟩ := done (.ok (some u)) (some u) rfl
    refine ⟨r, h1, h2, h3, h4, h5, h6, h7, h8, h9, ?_, ?_⟩
    · intro e he
      simp only [hp, if_true]
      rw [← h10, he]
    · intro v hv
      simp only [hp, if_true]
      rw [← h10, hv]
      refine ⟨rfl, fun hs => if_pos ⟨hs.1, by omega⟩, fun hs => if_neg (by omega)⟩
  · obtain ⟨r, h1, h2, h3, h4, h5, h6, h7, h8, h9, h10⟩ := done _ (some (u ++ ('/' :: stripSlash api))) rfl
    refine ⟨r, h1, h2, h3, h4, h5, h6, h7, h8, h9, ?_, ?_⟩
    · intro e he
      simp only [hp, if_false]
      rw [← h10, he]
    · intro v hv
      simp only [hp, if_false]
      rw [← h10, hv]
      refine ⟨rfl, fun hs => if_pos ⟨hs.1, by omega⟩, fun hs => if_neg (by omega)⟩

example (v : Val) : IsMethod "DELETE".toList ∧ (RestClient.new v v).url ≠ none ∧ ¬ (v.truthy ∧ Val.none.truthy) :=
  ⟨⟨"delete".toList, by decide, by unfold SameLetters; decide⟩, by simp [RestClient.new], by simp [Val.none]⟩

/-- C61: whatever happens, no more than one request is issued, and every response received is closed exactly once. -/
theorem C61_balance (net : Network) (c : RestClient) (method api : Text) (auth header item data json : Val) :
    (issued (c.request net method api auth header item data json).2).length ≤ 1
      ∧ closed (c.request net method api auth header item data json).2 = (issued (c.request net method api auth header item data json).2).filterMap fun r => (net r).toOption := by
  unfold RestClient.request
  split
  · simp [issued, closed]
  split
  · simp [issued, closed]
  simp only
  generalize (if stripSlash api = [] then Except.ok c.url else match c.url with | none => Except.error PyErr.typeError | some u => Except.ok (some (u ++ '/' :: stripSlash api))) = url
  cases url with
  | error e => simp [issued, closed]
  | ok w =>
    simp only
    split
    · rename_i e he
      simp [issued, closed, he, Except.toOption]
    · rename_i v hv
      simp [issued, closed, hv, Except.toOption]

/-- C70: `live` issues exactly one HEAD request to the base, and is true exactly if there is a response, whatever its status. -/
theorem C70_live (net : Network) (c : RestClient) :
    ∃ r, issued (c.live net).2 = [r] ∧ SameLetters r.method "head".toList ∧ r.url = c.url ∧ r.proxies = c.proxy ∧ r.timeout = c.timeout
      ∧ ((c.live net).1 = true ↔ ∃ v, net r = .ok v) ∧ closed (c.live net).2 = [] := by
  refine ⟨{ method := "head".toList, url := c.url, params := .none, data := .none, headers := .none, auth := .none, json := .none, proxies := c.proxy, timeout := c.timeout }, ?_, rfl, rfl, rfl, rfl, ?_, ?_⟩
  · unfold RestClient.live
    simp only
    split <;> simp [issued]
  · unfold RestClient.live
    simp only
    split
    · rename_i e he
      rw [he]; simp
    · rename_i v hv
      rw [hv]; simp
  · unfold RestClient.live
    simp only
    split <;> simp [closed]

/-- C70: an error status counts as live, and the response of `live` is left open: after it, unlike after `request`, there are responses received and not closed. -/
theorem C70_left_open : ∃ (net : Network) (c : RestClient) (v : HttpResponse), (∀ r, net r = .ok v) ∧ v.status = 503 ∧ (c.live net).1 = true ∧ closed (c.live net).2 = [] :=
  ⟨fun _ => .ok ⟨1, 503⟩, RestClient.new .none .none, ⟨1, 503⟩, fun _ => rfl, rfl, rfl, rfl⟩

end Verif.Props
