{"id": "C01", "title": "Handlers are uninstalled on every exit", "statement": "After a `with handler(i):` or `with interpreter(i):` block ends, by returning or by an exception of any kind, the interpretation in force is exactly the one that was in force on entry, and the same holds across every operation call, handler invocation and fwd performed inside the block.", "quantifier": "all programs, all nestings of handler/interpreter blocks, operation calls and fwd calls, all points at which an exception is raised, all starting interpretations", "why_tests_cant": "the exit points are unbounded in number: an exception may be raised at any depth of nested handlers, prompts and saved-argument scopes", "anchors": ["effectful/internals/runtime.py: interpreter", "effectful/ops/semantics.py: handler", "effectful/internals/runtime.py: _set_prompt, _save_args", "effectful/ops/types.py: Operation.__call__"]}
{"id": "C02", "title": "coproduct handles the union and the right side wins", "statement": "coproduct(a, b) handles exactly the operations handled by a or b; an operation handled only by one side keeps that side's behaviour; for an operation handled by both, calling it runs b's handler first. The arguments a and b are left unchanged and the key order is a's keys followed by b's new keys.", "quantifier": "all interpretations a, b and all operations", "why_tests_cant": "ranges over all finite maps and all overlaps of their domains", "anchors": ["effectful/ops/semantics.py: coproduct"]}
{"id": "C03", "title": "fwd walks the handler stack", "statement": "Calling an operation handled by n nested or coproducted handlers runs the innermost one; each fwd(...) from a handler runs the next outer handler of the same operation with the forwarded arguments, and fwd from the outermost handler runs the operation's default rule. All other operations called anywhere in the chain see the interpretation in force at that point. So the prompt and saved-argument machinery is indistinguishable (results, exceptions, side effects and their order) from an abstract machine with one explicit stack of handlers per operation.", "quantifier": "all programs, all stacks of handlers in any bracketing of coproduct/handler/interpreter, all arguments, all effects performed by handler bodies", "why_tests_cant": "the number of handlers, their nesting and the interleaving of fwd with other operations and with new handler installations are unbounded", "anchors": ["effectful/ops/semantics.py: fwd, coproduct, handler", "effectful/internals/runtime.py: _set_prompt, _save_args, _restore_args, _get_args", "effectful/ops/types.py: Operation.__call__, Operation.__default_rule__"]}
{"id": "C04", "title": "fwd() without arguments forwards the current arguments", "statement": "Inside a handler that was called with arguments (a, k), fwd() behaves exactly as fwd(*a, **k).", "quantifier": "all handlers, all argument lists, all enclosing calls", "why_tests_cant": "which arguments are 'current' depends on the whole dynamic call history, not on any one call", "anchors": ["effectful/ops/semantics.py: fwd", "effectful/internals/runtime.py: _save_args, _restore_args, _get_args"]}
{"id": "C05", "title": "coproduct is associative", "statement": "For all interpretations a, b, c, running any program under coproduct(coproduct(a, b), c) and under coproduct(a, coproduct(b, c)) gives the same result, exception and side effects.", "quantifier": "all interpretations a, b, c, all programs and all starting states", "why_tests_cant": "observational equivalence quantifies over every program that can be run under the two interpretations", "anchors": ["effectful/ops/semantics.py: coproduct"]}
{"id": "C06", "title": "The empty interpretation is a unit", "statement": "handler({}) changes nothing; handler(coproduct({}, i)) and handler(coproduct(i, {})) behave as handler(i).", "quantifier": "all interpretations i, all programs, all starting states", "why_tests_cant": "observational equivalence over every program", "anchors": ["effectful/ops/semantics.py: coproduct, handler"]}
{"id": "C07", "title": "Nested handlers equal one handler of the coproduct", "statement": "`with handler(a): with handler(b): P` and `with handler(coproduct(a, b)): P` give the same result, exception and side effects.", "quantifier": "all interpretations a, b, programs P and starting states", "why_tests_cant": "observational equivalence over every program", "anchors": ["effectful/ops/semantics.py: coproduct, handler"]}
{"id": "C08", "title": "fwd is bound exactly inside handlers", "statement": "Called with no handler running, fwd raises RuntimeError and performs no effect. Called from the default rule that a fwd chain ended in, it raises RuntimeError and never restarts the chain.", "quantifier": "all interpretations with no handler running, all arguments", "why_tests_cant": "must hold at every point of every history at which no handler is active", "anchors": ["effectful/ops/semantics.py: fwd", "effectful/ops/types.py: Operation.__call__"]}
{"id": "C09", "title": "apply handles exactly the unhandled calls", "statement": "An operation with no handler runs its default rule; if the default raises NotHandled the call returns the term op(args) with the same operation and arguments (in the form of C102). If `apply` is handled, its handler is invoked for exactly those calls whose operation has no handler, with that operation followed by the call's arguments.", "quantifier": "all operations (of Operation or any subclass of it), interpretations and arguments", "why_tests_cant": "ranges over all class hierarchies of operations and all interpretations", "anchors": ["effectful/ops/types.py: Operation.__call__, Operation.__init_subclass__, __apply__, Operation.__default_rule__"]}
{"id": "C10", "title": "Interpretations are thread-local", "statement": "What a thread observes of the current interpretation depends only on the handler blocks that this thread itself entered and left; no schedule of other threads changes it, and a new thread starts from the empty interpretation.", "quantifier": "all numbers of threads, all programs of enter/exit/call steps, all interleavings", "why_tests_cant": "the interleavings are unbounded and cannot be enumerated by scheduling tests", "anchors": ["effectful/internals/runtime.py: Runtime, get_runtime, interpreter"]}
{"id": "C11", "title": "evaluate(t, intp=i) is evaluation under i alone", "statement": "evaluate(t, intp=i) evaluates t with exactly the handlers of i (no others), and restores the previous interpretation; a handler of i that calls fwd() gets the operation's default rule on the current arguments.", "quantifier": "all terms t, all interpretations i, all surrounding interpretations", "why_tests_cant": "ranges over all terms and interpretations, including handlers that forward", "anchors": ["effectful/ops/semantics.py: evaluate, handler, coproduct", "effectful/internals/runtime.py: interpreter"]}
{"id": "C12", "title": "Scoped installation survives suspended blocks", "statement": "The interpretation observed at any point is the one given by the handler blocks that are open at that point, for every order in which blocks are entered and left (including blocks held open by generators or coroutines of one thread).", "quantifier": "all sequences of enter and exit events in one thread", "why_tests_cant": "quantifies over all interleavings of suspended blocks", "anchors": ["effectful/internals/runtime.py: interpreter", "effectful/ops/semantics.py: handler"]}
{"id": "C13", "title": "Interpretations are captured when the block is entered", "statement": "Changing a dict after it was passed to handler(...), interpreter(...) or coproduct(...) does not change the handlers in force or the coproduct already built; entering a block changes no dict owned by the user.", "quantifier": "all sequences of dict updates, block entries, block exits and calls", "why_tests_cant": "aliasing bugs show only for particular interleavings of mutation and installation", "anchors": ["effectful/internals/runtime.py: interpreter", "effectful/ops/semantics.py: coproduct"]}
{"id": "C14", "title": "evaluate is a structure-preserving homomorphism", "statement": "evaluate maps over lists, tuples, named tuples, mappings, dataclasses and term arguments, evaluating every leaf exactly once from left to right and then calling each term's operation on the evaluated arguments; the container's shape and keys are preserved, and leaves that are no term or operation are unchanged.", "quantifier": "all finite nestings of containers and terms, all interpretations", "why_tests_cant": "the expression trees are unbounded", "anchors": ["effectful/ops/semantics.py: evaluate, _evaluate_object, _evaluate_term, _evaluate_mapping, _evaluate_tuple, _evaluate_sequence"]}
{"id": "C15", "title": "Evaluating under nothing gives the term back", "statement": "evaluate(t) with no operation of t handled and no default rules gives a term equal to t up to renaming of bound variables; in particular it is idempotent up to that renaming and keeps the free variables.", "quantifier": "all terms over operations without defaults, with any binding structure", "why_tests_cant": "ranges over all terms with nested binders", "anchors": ["effectful/ops/semantics.py: evaluate, _evaluate_term", "effectful/ops/syntax.py: defdata"]}
{"id": "C16", "title": "fvsof returns the free variables", "statement": "fvsof(e) is the set of operations that occur in e and are not bound at that occurrence.", "quantifier": "all expressions with any nesting and sharing of binders", "why_tests_cant": "the result depends on the order in which occurrences are visited, so no finite set of examples settles it", "anchors": ["effectful/ops/semantics.py: fvsof", "effectful/ops/types.py: Operation.__fvs_rule__", "effectful/ops/syntax.py: Scoped.analyze"]}
{"id": "C17", "title": "Building a binding term never captures or leaks variables", "statement": "Constructing a term of an operation that binds variables replaces each bound variable, in exactly the arguments that are in its scope, by one new operation distinct from every operation that existed before; occurrences in arguments outside the scope and all other variables are untouched. Hence the free variables of the result are those of the arguments minus the bound ones, and two terms built from alpha-equivalent pieces are alpha-equivalent.", "quantifier": "all operations with Scoped signatures and all arguments", "why_tests_cant": "ranges over all binding structures and all coincidences of variable names", "anchors": ["effectful/ops/syntax.py: defdata, Scoped.analyze", "effectful/ops/types.py: Operation.__fvs_rule__"]}
{"id": "C18", "title": "Calling a deffn term is capture-avoiding substitution", "statement": "If t = deffn(body, x1, ..., xn) then t(a1, ..., an) is body with each xi replaced by ai, with no free variable of any ai becoming bound.", "quantifier": "all bodies and all argument terms, including terms that share binders with the body", "why_tests_cant": "capture appears only for particular overlaps of binders and free variables", "anchors": ["effectful/ops/syntax.py: deffn, _CallableTerm.__call__"]}
{"id": "C19", "title": "Calling a deffn term with the wrong number of arguments fails", "statement": "Calling deffn(body, x1..xn, k1=y1..) with a number of positional arguments other than n or with other keywords raises an exception rather than returning a term in which a parameter of the function is free.", "quantifier": "all bodies, parameter lists and argument lists", "why_tests_cant": "ranges over all arities", "anchors": ["effectful/ops/syntax.py: _CallableTerm.__call__"]}
{"id": "C20", "title": "syntactic_eq is an equivalence relation with the documented meaning", "statement": "syntactic_eq is reflexive, symmetric and transitive; terms are equal iff they have the same operation, pairwise equal positional arguments and equal keyword arguments irrespective of keyword order; mappings compare by key, sequences elementwise irrespective of sequence type, strings and bytes as atoms.", "quantifier": "all pairs and triples of values built from terms, containers and atoms", "why_tests_cant": "symmetry and transitivity range over all pairs and triples of nested values", "anchors": ["effectful/ops/syntax.py: syntactic_eq"]}
{"id": "C21", "title": "Scope inference is well defined", "statement": "Scoped.infer_annotations succeeds (its postcondition never fails) exactly for signatures in which no parameter has several scopes, no type variable of a scope is used in a type, and each operation parameter whose scope is in that of the result is in all scopes; the result has a Scoped annotation on every parameter and on the result, all of them contain a common non-empty root scope; inference keeps every relative scope and is idempotent.", "quantifier": "all signatures with any assignment of scopes to parameters", "why_tests_cant": "ranges over all assignments of scope sets to parameters", "anchors": ["effectful/ops/syntax.py: Scoped.infer_annotations, Scoped._get_root_ordinal, Scoped._check_no_boundvars_in_result"]}
{"id": "C22", "title": "Bound variables are exactly those given by the scope annotations", "statement": "A variable passed for parameter v is bound in the value of parameter q iff the scope of v is contained in the scope of q and not contained in the scope of the result. Each bound variable set is duplicate-free, or construction is rejected with an assertion.", "quantifier": "all signatures and argument lists", "why_tests_cant": "ranges over all signatures", "anchors": ["effectful/ops/syntax.py: Scoped.analyze", "effectful/ops/types.py: Operation.__fvs_rule__"]}
{"id": "C23", "title": "defop always creates a fresh operation", "statement": "Every operation returned by Operation.define differs from every operation created before (also from the one it was copied from) even with equal names and defaults; equality is identity; hash agrees with equality; the ordering is total and agrees with equality. An operation made from a function or builtin runs this function by default.", "quantifier": "all histories of operation creation", "why_tests_cant": "ranges over all creation histories and all hash/equality interactions", "anchors": ["effectful/ops/types.py: Operation.define, Operation.__eq__, Operation.__hash__, Operation.__lt__"]}
{"id": "C24", "title": "Printed terms name distinct operations distinctly", "statement": "In str(t) two occurrences get the same printed name iff they are occurrences of the same operation.", "quantifier": "all terms, all assignments of names to operations", "why_tests_cant": "ranges over all names chosen by users, including names with the separator used for disambiguation", "anchors": ["effectful/ops/types.py: Term.__str__"]}
{"id": "C25", "title": "ObjectInterpretation resolves implementations by the class's MRO", "statement": "For a subclass of ObjectInterpretation the implementation of an operation is the one given by the first class in its method resolution order that itself implements the operation, bound to the instance; an operation is handled iff some class in the MRO implements it.", "quantifier": "all class hierarchies, including diamonds, and all sequences of class creations (also failing ones)", "why_tests_cant": "ranges over all hierarchies and creation histories", "anchors": ["effectful/ops/syntax.py: ObjectInterpretation.__init_subclass__, ObjectInterpretation.__getitem__, _ImplementedOperation.__set_name__"]}
{"id": "C26", "title": "Class and instance operations are stable and distinct", "statement": "Accessing a method operation on the same instance always yields the same operation; different instances, and different classes for class methods, yield distinct operations; a handler for one instance's operation does not affect another instance; the class-level handler applies to every instance whose own operation is not handled; a call that nothing handles stays a term of the instance's operation, so that evaluating it later is the call later; a class-level handler that returns a term of the class operation for some instance gives a term of that instance's operation.", "quantifier": "all histories of attribute accesses over any number of classes and instances", "why_tests_cant": "caching bugs show only for particular access histories and inheritance shapes", "anchors": ["effectful/ops/types.py: Operation.__get__, Operation.__set_name__, _ClassMethodOpDescriptor.__get__", "effectful/ops/semantics.py: evaluate on instances"]}
{"id": "C27", "title": "productN runs its interpretations independently", "statement": "Evaluating a term under productN({p1: i1, ..., pn: in}) and projecting component pk gives the same value as evaluating the term under ik alone, as long as ik does not ask for another component; unhandled operations behave as under the default rule.", "quantifier": "all terms and all families of interpretations", "why_tests_cant": "ranges over all terms and all families of interpretations", "anchors": ["effectful/internals/product_n.py: productN, _pack, _unpack"]}
{"id": "C28", "title": "Lazy components are computed at most once", "statement": "Each component of a product value is computed at most once per product, whatever the order and number of requests, and all requests return the same value; if the computation raises, the exception is re-raised to each requester and the component is not marked as computed.", "quantifier": "all sequences of requests", "why_tests_cant": "ranges over all request histories, including failing computations", "anchors": ["effectful/internals/product_n.py: CallByNeed"]}
{"id": "C29", "title": "argsof returns the arguments of the current call", "statement": "Inside a component analysis of productN, argsof(p) returns the arguments that the current operation was called with, as seen by component p.", "quantifier": "all operations, arguments and analyses, including analyses given by an apply handler", "why_tests_cant": "ranges over all arities and analyses", "anchors": ["effectful/internals/product_n.py: argsof, productN"]}
{"id": "C30", "title": "Partial evaluation of numeric terms is sound", "statement": "Building an arithmetic expression with free variables and later evaluating it with the variables handled gives the same number as computing the expression directly on the numbers; an arithmetic operation computes immediately iff none of its operands is a term and otherwise yields a term of that operation with those operands.", "quantifier": "all arithmetic expression trees and all assignments", "why_tests_cant": "expression trees and assignments are unbounded", "anchors": ["effectful/ops/syntax.py: _NumberTerm", "effectful/ops/types.py: Operation.__default_rule__", "effectful/ops/semantics.py: evaluate"]}
{"id": "C31", "title": "Equal terms have equal hashes", "statement": "If two terms compare equal with == then they have the same hash whenever both are hashable.", "quantifier": "all pairs of terms", "why_tests_cant": "ranges over all pairs of terms", "anchors": ["effectful/ops/syntax.py: _NumberTerm.__hash__, _BaseTerm.__eq__"]}
{"id": "C32", "title": "A unifier makes the pattern match", "statement": "If unify(t, s) succeeds with substitution r then substitute(t, r) describes s, and existing bindings are kept.", "quantifier": "all type patterns and concrete types of the modelled grammar", "why_tests_cant": "ranges over all type expressions", "anchors": ["effectful/internals/unification.py: unify, _unify_typevar, _unify_generic, substitute"]}
{"id": "C33", "title": "Type inference terminates", "statement": "unify never returns a substitution on which substitute does not terminate.", "quantifier": "all pairs of type expressions", "why_tests_cant": "ranges over all type expressions", "anchors": ["effectful/internals/unification.py: unify, _unify_typevar, substitute"]}
{"id": "C34", "title": "IndexSet.union is a join", "statement": "union of index sets is associative, commutative and idempotent, {} is its unit, and world w at index k is in the union iff it is in one of the arguments; no resulting index is empty.", "quantifier": "all index sets and all numbers of arguments", "why_tests_cant": "algebraic laws over all index sets", "anchors": ["effectful/handlers/indexed.py: IndexSet, union"]}
{"id": "C35", "title": "cond_n selects the case of the matching index", "statement": "For every position of the index, the result of cond_n(values, case) equals the value whose index set contains the case at that position.", "quantifier": "all families of values and all cases", "why_tests_cant": "ranges over all families, overlaps and index values", "anchors": ["effectful/handlers/indexed.py: cond_n, cond"]}
{"id": "C36", "title": "Tensor index desugaring preserves meaning", "statement": "Replacing None and Ellipsis in an index by full slices on a reshaped array selects the same elements with the same shape as the original index, and exactly the indices with at most one Ellipsis and not too many entries are accepted.", "quantifier": "all shapes and index tuples", "why_tests_cant": "ranges over all ranks, shapes and positions of None and Ellipsis", "anchors": ["effectful/internals/tensor_utils.py: _desugar_tensor_index"]}
{"id": "C37", "title": "bind_dims and unbind_dims are inverse", "statement": "Binding named dimensions of a tensor in a chosen order puts exactly these dimensions in front in that order and keeps all others in place; unbinding them again gives the original tensor.", "quantifier": "all tensors, all sets of named dimensions and all orders", "why_tests_cant": "ranges over all ranks and permutations", "anchors": ["effectful/handlers/torch.py: bind_dims, unbind_dims, _bind_dims_tensor"]}
{"id": "C38", "title": "Named batch dimensions are assigned consistently", "statement": "Naming.from_shape assigns to n names the n distinct dimensions directly left of the event dimensions in the given order. apply gives these dimensions of a value the names; there is an IndexError exactly if the leftmost position is further left than twice the number of dimensions of the value.", "quantifier": "all lists of names and all numbers of event dimensions", "why_tests_cant": "ranges over all lists", "anchors": ["effectful/handlers/pyro.py: Naming.from_shape, Naming.apply"]}
{"id": "C40", "title": "Failed LLM calls leave no trace in the conversation history", "statement": "A Template call either completes and appends its whole exchange to the agent's history, or raises and leaves the history exactly as it was before the call.", "quantifier": "all points at which the model, a tool, decoding or a handler fails, all numbers of tool-call rounds", "why_tests_cant": "the number of rounds and the failure points are unbounded", "anchors": ["effectful/handlers/llm/completions.py: LiteLLMProvider._call, append_message, call_system, call_user, call_assistant, call_tool"]}
{"id": "C41", "title": "Retries are bounded and leave only the successful answer", "statement": "With the retry handler, a model call is attempted at most the configured number of times; on success exactly one assistant message, the successful one, is added to the history; on final failure nothing is added and the last error is raised. Only decoding errors are retried.", "quantifier": "all sequences of model responses and errors, all configured bounds", "why_tests_cant": "ranges over all response sequences", "anchors": ["effectful/handlers/llm/completions.py: RetryLLMHandler"]}
{"id": "C42", "title": "Every tool call is answered once and in order", "statement": "In every history sent to the model each assistant message with tool calls is followed by exactly one tool result per call, in the order of the calls, before the next assistant message. A tool that raises a caught exception is answered by a tool message of its own; any other exception ends the template call and adds nothing to the history.", "quantifier": "all sequences of model responses with any number of tool calls", "why_tests_cant": "ranges over all numbers of rounds and calls", "anchors": ["effectful/handlers/llm/completions.py: LiteLLMProvider._call, call_assistant, call_tool, RetryLLMHandler"]}
{"id": "C43", "title": "Message history is an ordered map without duplicates", "statement": "Appending messages keeps one entry per message id; a new message goes last (or first for the system prompt); the relative order of all others is kept.", "quantifier": "all sequences of appends", "why_tests_cant": "ranges over all append histories, including repeated ids", "anchors": ["effectful/handlers/llm/completions.py: append_message, _make_message, call_system"]}
{"id": "C44", "title": "Each tool is offered once, under a name that resolves to it", "statement": "The tools collected from a lexical environment contain every tool reachable by the documented rules exactly once; distinct tools have distinct names; looking the name up gives back the tool.", "quantifier": "all environments, including aliases and colliding qualified names", "why_tests_cant": "ranges over all environments and aliasing patterns", "anchors": ["effectful/handlers/llm/completions.py: collect_tools"]}
{"id": "C45", "title": "Content-block linearisation keeps the text", "statement": "Splitting a JSON value into content blocks and concatenating the blocks, with every non-text block replaced by its own JSON serialisation, gives back the JSON serialisation of the value.", "quantifier": "all JSON values with content blocks at any position", "why_tests_cant": "ranges over all JSON trees", "anchors": ["effectful/handlers/llm/encoding.py: to_content_blocks"]}
{"id": "C46", "title": "Tuples survive encoding and decoding", "statement": "Decoding the encoding of a tuple or named tuple gives back an equal value, and decoding rejects objects with missing or extra items. The encoding of a named tuple has all its fields as keys, in order.", "quantifier": "all tuple types and values, and all malformed inputs", "why_tests_cant": "ranges over all arities and nestings", "anchors": ["effectful/handlers/llm/encoding.py: _pydantic_type_tuple"]}
{"id": "C47", "title": "Prompt formatting keeps order and content", "statement": "The user message built from a template string contains the literal text and the rendered fields in the order of the template; adjacent texts are merged; non-text parts stay at their position.", "quantifier": "all template strings and all field values", "why_tests_cant": "ranges over all templates and block sequences", "anchors": ["effectful/handlers/llm/completions.py: call_user"]}
{"id": "C48", "title": "Schema reference inlining removes all references", "statement": "Inlining references in a JSON schema terminates and yields an equivalent schema without references.", "quantifier": "all schemas with any reference graph", "why_tests_cant": "ranges over all reference graphs, including cyclic ones", "anchors": ["effectful/handlers/llm/encoding.py: _inline_refs"]}
{"id": "C49", "title": "Type-check errors are attributed to the right region", "statement": "Exactly the diagnostics of severity error whose line lies in the spliced region [lo, hi] are reported, in order; open bounds are unbounded. Output that cannot be understood raises an exception and never counts as success.", "quantifier": "all diagnostic outputs and all bounds", "why_tests_cant": "ranges over all outputs and bounds", "anchors": ["effectful/handlers/llm/evaluation.py: _region_errors, _mypy_check_region"]}
{"id": "C50", "title": "Restricted execution reflects every top-level binding effect", "statement": "After exec(bytecode, env) under RestrictedEvalProvider, env reflects all top-level binding effects of the code: new names, rebindings and deletions; other names are unchanged; the restricted builtins never leak and cannot be replaced. UnsafeEvalProvider sets __builtins__ only if env has none.", "quantifier": "all environments and all programs viewed as sequences of top-level bindings, rebindings and deletions", "why_tests_cant": "ranges over all programs and environments", "anchors": ["effectful/handlers/llm/evaluation.py: RestrictedEvalProvider.exec"]}
{"id": "C51", "title": "A REPL session accumulates bindings and returns each call's own output", "statement": "Bindings made by one snippet are visible to all later ones; each call returns exactly the output it produced; a raising snippet does not end the session; prior_snippets lists exactly the error-free executed snippets; the seeding environment is never modified.", "quantifier": "all sequences of snippets", "why_tests_cant": "ranges over all session histories", "anchors": ["effectful/handlers/llm/evaluation.py: ReplSession"]}
{"id": "C52", "title": "A template that is not marked recursive is not offered to itself", "statement": "While a Template that is not annotated IsRecursive is being run, the tools offered to the model do not contain that template.", "quantifier": "all templates, contexts and agents", "why_tests_cant": "ranges over all lexical contexts", "anchors": ["effectful/handlers/llm/template.py: Template.tools, _is_recursive_signature", "effectful/handlers/llm/completions.py: LiteLLMProvider._call, call_assistant, collect_tools"]}
{"id": "C53", "title": "Agents have separate histories", "statement": "Messages exchanged by one agent never appear in another agent's history, nor in a call that belongs to no agent.", "quantifier": "all interleavings of calls on any number of agents", "why_tests_cant": "ranges over all call histories", "anchors": ["effectful/handlers/llm/template.py: Agent", "effectful/handlers/llm/completions.py: LiteLLMProvider._call"]}
{"id": "C54", "title": "IsRecursive on a parameter is rejected", "statement": "Using IsRecursive on a parameter of a template raises TypeError when the template is defined.", "quantifier": "all signatures", "why_tests_cant": "ranges over all signatures", "anchors": ["effectful/handlers/llm/template.py: _IsRecursiveAnnotation.infer_annotations, Template.define"]}
{"id": "C55", "title": "Undefined prompt variables are rejected at definition", "statement": "Template.define accepts a prompt iff every field it mentions is a parameter or a name of the lexical context; after acceptance formatting never fails for an undefined name.", "quantifier": "all prompt strings, signatures and contexts", "why_tests_cant": "ranges over all prompt strings", "anchors": ["effectful/handlers/llm/template.py: Template._validate_prompt, Template.define"]}
{"id": "C56", "title": "gather selects the given indices", "statement": "gather(value, indexset) keeps the shape and the named dimensions of value; a name of indexset gets the number of its indices as size, and its j-th position holds the values at the j-th of these indices. It raises exactly if, for a name of value, the set is empty or has an index out of range. Gathering indices_of(value) changes nothing.", "quantifier": "all tensors with named dimensions and all index sets", "why_tests_cant": "ranges over all ranks, names and index sets", "anchors": ["effectful/handlers/indexed.py: gather, indices_of, name_to_sym"]}
{"id": "C57", "title": "stack is indexed by its new name", "statement": "stack(values, name) for values of one shape has their named dimensions and the new one of size len(values); at position i of name it equals values[i]. Without values there is a RuntimeError, and a ValueError if a name stands for dimensions of different sizes.", "quantifier": "all non-empty sequences of tensors with named dimensions and all unused names", "why_tests_cant": "ranges over all numbers of values, ranks and sets of names", "anchors": ["effectful/handlers/indexed.py: stack", "effectful/handlers/torch.py: torch_getitem, _partial_eval"]}
{"id": "C58", "title": "Readers of variables do not replace tools", "statement": "With LexicalReaders installed, the offered tools are exactly those collected without it plus one reader per variable of the context that is bound to an identifier, is not offered already, is not an agent, and whose type has an encoding; a reader returns the value of its variable. Collecting does not raise when collecting without readers does not.", "quantifier": "all lexical contexts", "why_tests_cant": "ranges over all contexts of tools, agents and values", "anchors": ["effectful/handlers/llm/completions.py: LexicalReaders._collect, _LexicalVariableTool, collect_tools"]}
{"id": "C59", "title": "A type check that could not run is never taken for one that passed", "statement": "type_check raises RuntimeError whenever mypy itself failed to run, and otherwise passes exactly if there is no error in the region.", "quantifier": "all ways the mypy process can end and all bounds", "why_tests_cant": "ranges over all outcomes of the process, most of which a test environment with a working mypy never shows", "anchors": ["effectful/handlers/llm/evaluation.py: _mypy_check_region"]}
{"id": "C60", "title": "The region that is type-checked is exactly the generated code", "statement": "The lines lo to hi that splice_into_source (_splice_repl) returns are exactly the lines of the generated statements (of the current snippet) in the source that is checked; no line of the surrounding module or of earlier snippets is among them.", "quantifier": "all modules, all templates in them at any nesting, all generated code and all layouts of the unparsed source", "why_tests_cant": "ranges over all modules and layouts", "anchors": ["effectful/handlers/llm/evaluation.py: _def_nodes, splice_into_source, _splice_repl"]}
{"id": "C61", "title": "A template's own definition is found in its module", "statement": "_find_def_at_lineno returns the one definition whose first decorator or def line is the given one; if the source no longer has the definition there, no other one is taken for it.", "quantifier": "all modules and all definitions in them", "why_tests_cant": "ranges over all modules", "anchors": ["effectful/handlers/llm/evaluation.py: _find_def_at_lineno, _recover_template_def"]}
{"id": "C62", "title": "Generated code that cannot be nested is rejected before splicing", "statement": "scan_non_nestable rejects exactly the code that compiles as a module but not inside of a function because of a star import or a __future__ import.", "quantifier": "all generated modules", "why_tests_cant": "ranges over all modules", "anchors": ["effectful/handlers/llm/evaluation.py: scan_non_nestable"]}
{"id": "C63", "title": "Tool calls are decoded to the tool and arguments meant, and round trip", "statement": "Every tool is advertised under a name that decodes to it; a call is decoded exactly if its arguments fit the parameters of the tool, each parameter is bound to the decoded value of its argument; encoding a decoded call and decoding it again gives the same call.", "quantifier": "all contexts, tools, signatures, calls and codecs", "why_tests_cant": "ranges over all signatures, contexts and calls", "anchors": ["effectful/handlers/llm/encoding.py: _serialize_tool, _validate_tool_call, _serialize_tool_call"]}
{"id": "C64", "title": "Synthesized functions have the requested arity and are checked before they are run", "statement": "Code decoded for Callable[[P1, …, Pn], R] gives the function its last statement defines; it can be called with exactly n positional arguments and has a return annotation; no code is executed that does not parse, does not end in a definition with n positional parameters, or fails the type check. Code that leaves the name of its definition without a value, or with one that is not callable, is rejected.", "quantifier": "all callable types, contexts, inputs and generated modules; all behaviours of parser, checker, compiler and executor", "why_tests_cant": "ranges over all modules, signatures and behaviours of the eval provider", "anchors": ["effectful/handlers/llm/encoding.py: _pydantic_callable, _validate_signature_ast, _validate_signature_callable"]}
{"id": "C65", "title": "Decoded code keeps its own source", "statement": "Encoding a decoded code object or synthesized function gives the source it was decoded from, whatever else is decoded before or afterwards.", "quantifier": "all sequences of decoding and freeing, all sources and addresses", "why_tests_cant": "ranges over all interleavings and all reuses of addresses", "anchors": ["effectful/handlers/llm/evaluation.py: UnsafeEvalProvider.parse, RestrictedEvalProvider.parse", "effectful/handlers/llm/encoding.py: _pydantic_callable, codec of types.CodeType"]}
{"id": "C66", "title": "Every part of a type with a codec gets it, nothing else changes", "statement": "Encodable[t] annotates every class in t that has a codec with that codec, at any depth, and leaves types without such parts as they are, with their annotations.", "quantifier": "all type expressions and all registries", "why_tests_cant": "ranges over all types", "anchors": ["effectful/handlers/llm/encoding.py: TypeToPydanticType.evaluate", "effectful/internals/unification.py: TypeEvaluator.evaluate"]}
{"id": "C67", "title": "A value has the type inferred for it", "statement": "The type that nested_type gives for a value is one the value has; an element type is given only if all elements have it, and is given if the elements are of one class.", "quantifier": "all values built from lists, tuples, sets, frozensets, dicts, strings and other objects, at any depth", "why_tests_cant": "ranges over all nested values", "anchors": ["effectful/internals/unification.py: nested_type"]}
{"id": "C68", "title": "Canonical types are canonical and keep their arguments", "statement": "canonicalize(canonicalize(t)) == canonicalize(t), so that unify normalises its arguments at most once; for a subscripted class of the user it is the canonical base with the arguments for the parameters.", "quantifier": "all types, class hierarchies and arguments", "why_tests_cant": "ranges over all types and class hierarchies", "anchors": ["effectful/internals/unification.py: canonicalize, unify"]}
{"id": "C69", "title": "Indexing with slices and named dimensions selects what the slices select", "statement": "x[key] with named dimensions, integers and slices in the key has, for all values of the names, the entries that the integers and slices select from their dimensions, in the order of the dimensions; an index outside of its dimension raises IndexError.", "quantifier": "all tensors, shapes, integers, slice bounds and steps", "why_tests_cant": "ranges over all shapes and slices; tests only use full slices", "anchors": ["effectful/handlers/torch.py: torch_getitem"]}
{"id": "C70", "title": "Operations act pointwise on named dimensions", "statement": "An operation on tensors with named dimensions returns a tensor that has all their names and that gives, for all values of the names, what the function gives for the entries at these values. Dimensions of different sizes with the same name raise ValueError; with a free variable without size the operation stays a term; without named dimensions it is the function.", "quantifier": "all functions of tensors whose result shape depends on the shapes, all numbers of arguments, names, sizes and orders of dimensions", "why_tests_cant": "ranges over all functions, shapes and sets of names", "anchors": ["effectful/handlers/torch.py: _register_torch_op, _partial_eval, sizesof"]}
{"id": "C71", "title": "sizesof gives each name the size of the dimension it indexes", "statement": "For an index with names, None and ... the size of each name is the size of the dimension it indexes; ValueError exactly if a name indexes dimensions of different sizes. Keys with at most one `...` and more entries than dimensions raise IndexError, in torch and for jax arrays without named dimensions.", "quantifier": "all shapes and keys, torch and jax", "why_tests_cant": "ranges over all shapes and keys", "anchors": ["effectful/handlers/torch.py: sizesof", "effectful/handlers/jax/_handlers.py: sizesof"]}
{"id": "C72", "title": "Calling a traced function is calling the function", "statement": "trace(f)(*args, **kwargs) returns what f(*args, **kwargs) returns, for each way of giving the arguments that f allows; variadic functions raise ValueError.", "quantifier": "all signatures, bodies that apply operations, arguments and behaviours of operations", "why_tests_cant": "ranges over all signatures and ways of calling", "anchors": ["effectful/ops/syntax.py: trace, _CallableTerm.__call__"]}
{"id": "C73", "title": "A term of dataclass type is an instance with the fields of the dataclass", "statement": "The term made for an operation returning a dataclass is an instance of the dataclass and has its fields; evaluating a field of the term gives the field of the value. A field of a term is a term, different for different terms and fields.", "quantifier": "all class hierarchies and all orders in which terms are made", "why_tests_cant": "ranges over all hierarchies and histories", "anchors": ["effectful/ops/syntax.py: defdata, _construct_dataclass_term, _DataclassTermMeta"]}
{"id": "C74", "title": "Sites of indexed distributions and observations keep their indices", "statement": "Under PyroShim, the positional form of an observation is aligned with that of its distribution, and applying the naming to it gives the observation expanded to the shape and indices of the distribution; each index gets a frame with the dimension it has from the right of the batch shape, and its size; the value of a site has the indices of the distribution.", "quantifier": "all tensors, shapes, indices and namings", "why_tests_cant": "ranges over all shapes and all combinations of names", "anchors": ["effectful/handlers/pyro.py: _broadcast_to_named, PyroShim._pyro_sample, PyroShim._pyro_post_sample"]}
{"id": "C75", "title": "A distribution with named dimensions is a family of distributions", "statement": "batch_shape is that of the parameters without names; for each value of the names, sample, log_prob and expand are those of the distribution with the parameters for this value; enumerate_support and entropy keep the names.", "quantifier": "all parameters, values, sample shapes, batch shapes and orders of iteration of sets", "why_tests_cant": "ranges over all shapes and all combinations of names", "anchors": ["effectful/handlers/numpyro.py: _bind_dims_distribution, _broadcast_to_named, expand_to_batch_shape, _DistributionTerm"]}
{"id": "C76", "title": "Transformed functions keep the names of their results", "statement": "jit, vmap, grad, jacfwd, jvp and vjp of functions whose results have named dimensions: the result has the same names, and for each value of them it is the transformation of the function that gives the entry for this value.", "quantifier": "all functions, arguments, names, shapes, sequences of calls and structures of results", "why_tests_cant": "ranges over all functions and all sequences of calls", "anchors": ["effectful/handlers/torch.py: _indexed_func_wrapper, grad, jacfwd, jvp, vjp, vmap", "effectful/handlers/jax/_handlers.py: _indexed_func_wrapper, jit"]}
{"id": "C77", "title": "The type of an expression describes its value", "statement": "If handlers give results of the annotated types for arguments of the annotated types, then evaluate(e) is an instance of typeof(e).", "quantifier": "all expressions, operations with type variables, handlers and values", "why_tests_cant": "ranges over all expressions and all handlers", "anchors": ["effectful/ops/semantics.py: typeof, _simple_type", "effectful/ops/types.py: Operation.__type_rule__", "effectful/internals/unification.py: nested_type, unify, substitute"]}
{"id": "C78", "title": "Distributions as terms keep their parameters, and bind and unbind names", "statement": "evaluate(d) of a distribution builds the distribution of the same class with the evaluated parameters. bind_dims(d, *names) puts the dimensions of the names in front of every tensor of d, at every depth, with the same entries for each value of the names; unbind_dims names them again, after checking that tensors agree in the leading sizes; the two are inverse to each other, up to broadcasting of tensors that lack names.", "quantifier": "all distributions of tensors, nested to any depth, shapes, names and orders of iteration of sets; all parameters and evaluation functions", "why_tests_cant": "ranges over all nestings, shapes and entries; tests compare shapes and names of samples, which lost parameters do not change", "anchors": ["effectful/handlers/pyro.py: _bind_dims_distribution, _unbind_dims_distribution, _register_distribution_op, _embed_*", "effectful/handlers/numpyro.py: _embed_*"]}
{"id": "C79", "title": "Operators on tensor and array terms mean the operators", "statement": "A program that applies Python's operators to free tensors or arrays and constants makes a term; evaluating that term with values for the free tensors gives what the program gives when run on those values. With a constant on the left the reflected method is called with the operands in the right order, and comparisons are mirrored. For jax this holds for all nineteen binary and four unary operators. For torch it holds for all but `%`, for which terms call fmod (sign of the dividend) where tensors use remainder (sign of the divisor), so that x % 3 at -1 gives -1 and not 2.", "quantifier": "for all expressions of operators of any size, all values, all functions of the library that agree with its documented operators", "why_tests_cant": "Tests apply each operator once to non-negative or random inputs and compare shapes or terms; that nested expressions with constants on either side keep their value concerns all programs and all values.", "anchors": ["effectful/handlers/torch.py:384-490", "effectful/handlers/jax/_terms.py:113-219"]}
{"id": "C80", "title": "Unification of typed dictionaries is safe for reading and writing", "statement": "If unify(typ, subtyp) succeeds on typed dictionaries, with a subtyp without type variables, then every value of subtyp that has only declared keys has the type typ after substitution; and if no NotRequired field of typ was skipped because subtyp lacks it, and no typed dictionary was taken for a Mapping, then also values with further keys have that type, and every change at any depth that typ allows (setting fields that are not ReadOnly, deleting NotRequired ones) keeps both types. A typed dictionary whose fields are classes is a Mapping[K, V] iff str is a K and all field types are subtypes of V, and a MutableMapping[K, V] iff they are also supertypes. Unification depends on the canonical forms of the types only. canonicalize is idempotent and keeps names and which fields are required; it ends iff definitions do not mention each other in an infinite chain. Where the code is lax: skipped fields and mappings make reading or writing unsafe; a field that is ReadOnly in subtyp may be mutable in typ; canonicalize loses ReadOnly, and the arguments of generic typed dictionaries, as soon as one field is not canonical; recursive typed dictionaries never end.", "quantifier": "for all types of any depth with type variables in the pattern, all substitutions without variables, all values, all paths and edits, all class hierarchies", "why_tests_cant": "Tests check single pairs of dictionaries for acceptance or refusal; that accepted pairs are safe for all values and all edits at all depths, with bindings shared between fields, is a statement about infinitely many types and values.", "anchors": ["effectful/internals/unification.py:262-299", "effectful/internals/unification.py:383-504", "effectful/internals/unification.py:664-694"]}
{"id": "C81", "title": "A template's context has the variables in its lexical scope", "statement": "When Template.define is applied where a function is defined (at module level, in classes, in functions, in any nesting), the context of the template resolves every name as the lexical scopes do: the variables of the enclosing functions' calls, innermost first, never those of class bodies, then the module's globals. At module level and in functions that are not in others this holds for any callers; in nested functions if the enclosing calls are still on the stack and no other call of the same name is in between. Otherwise not: if an enclosing function has returned, its variables and those of all functions around it are missing and names are taken from the module; a caller with the encloser's name is taken for it; and if define is called through a function of another module the globals are that module's. For static methods define calls itself from the library, so the globals are those of effectful.ops.types and the names of the template's own module are missing; for class methods it is called when the attribute is first read, and the enclosing functions are looked for among the reader's callers.", "quantifier": "for all nestings of functions and classes, all names, all stacks of calls with arbitrary callers, all variables", "why_tests_cant": "Tests have a handful of nestings, always called directly. That the walk over frames finds the lexical scopes for every nesting and every stack of dynamic callers, and exactly when it does not, is about arbitrary stacks.", "anchors": ["effectful/handlers/llm/template.py:268-311", "effectful/ops/types.py:54-61", "effectful/ops/types.py:322-330"]}
{"id": "C82", "title": "One REPL session for each call of a template", "statement": "Under PythonRepl, all rounds of one Template call get the same session and different calls, nested ones too, get different ones; outside of calls every request gets its own. If tools are collected from the call's own context, as LiteLLMProvider does, then after the call the contexts of all templates and all variables are as before, except for changes not made by the session; and from the first collection on, a name in the call's context has the value the session's code assigned last, or else its value at that time, whatever nested calls do. Otherwise not: template.tools read outside of a call adds a permanent layer of copied values to the template's context, which hides later changes of globals; read in a call before the first round, it makes the session's assignments stay in that context; and changes of globals during a call are not seen.", "quantifier": "for all sequences of collecting tools, running code, changing variables and calling templates, nested to any depth, from all states", "why_tests_cant": "Tests run two calls and compare; isolation is about every interleaving of rounds and nested calls, and that no variable leaks is about all contexts at once.", "anchors": ["effectful/handlers/llm/completions.py:295-347", "effectful/handlers/llm/evaluation.py:610-626", "effectful/handlers/llm/evaluation.py:691-705", "effectful/handlers/llm/template.py:216-231"]}
{"id": "C83", "title": "Types of arithmetic on number terms", "statement": "For programs of +, -, *, /, //, %, **, <<, >>, &, ^, |, unary operators and comparisons on numbers and terms, the type computed for a term is that of the rightmost operand, whatever the operator and the left operand are. If at every operator applied to a term the type of the left operand is not above that of the right one (bool < int < float < complex), and the right one is not below all results of the operator, then the number that the program computes has the type of the term; so programs with numbers of one class and operators that keep the class are typed exactly. Otherwise not: for a float x, x() + 1 is an int term (and an Integral), int / int is an int term, bool + bool and -bool are bool terms; and if_then_else(c(), x(), x() + 1), with a type variable for both branches, raises TypeError.", "quantifier": "for all programs, all numbers and all values of the variables, with all tables of classes", "why_tests_cant": "Tests check the types of a few terms with operands of one class; the rule is about programs of any depth with mixed operands, where errors are passed on to the types of all enclosing terms.", "anchors": ["effectful/ops/syntax.py:1006-1367", "effectful/ops/syntax.py:504-515", "effectful/ops/types.py:377-412", "effectful/internals/unification.py:584-617"]}
{"id": "C84", "title": "Containers in arguments of terms", "statement": "An operation without a handler makes a term of evaluated arguments. Arguments without terms are unchanged exactly if each of their containers is of a class that is made of its items: list, tuple, named tuple, UserList, unbounded deque, dict, OrderedDict, UserDict, defaultdict, mapping proxy, set. With terms in them these keep their class and length, and a key of the new mapping has the value of the last old key that evaluates to it. Otherwise not: a nonempty Counter becomes a Counter of its (element, count) pairs, each counted once, and every further evaluation nests all keys one level deeper; a ChainMap becomes one around a tuple, so that reading a key, or evaluating again, raises TypeError; IndexSet, range and arrays raise TypeError, so no term can have them in its arguments; a deque loses its maximal length; views become sets and lists, and items() with an unhashable value raises TypeError.", "quantifier": "for all nestings of containers, all values of terms, and any number of evaluations", "why_tests_cant": "The containers are nested without bound, and the effect on a Counter grows with each evaluation, of which a program makes many (each enclosing term evaluates its arguments again); tests have dicts, lists and tuples only.", "anchors": ["effectful/ops/semantics.py:151-226", "effectful/ops/syntax.py:517-549", "effectful/handlers/indexed.py:48-54"]}
{"id": "C85", "title": "Templates that are methods belong to their instance", "statement": "A template read as an attribute of an instance has this instance as the value of its first parameter, every other name of the template's context with its meaning, the instance's own history if it is an agent, and as system prompt the docstrings of the module and of the class; it is the same template at each read. Reading templates, on instances or classes, changes no names but the first parameter. All calls of an agent whose templates share a module docstring send the same system message. Otherwise not: on an instance with free variables, without __dict__, or if the template was put into the class later, reading raises AttributeError; a template without parameters raises IndexError; each read on the class adds a map to the template's context that makes the first parameter None; a copy of a used agent has templates with the original's self and history; and with templates of several modules all calls send the system prompt of the one called first.", "quantifier": "for all classes, all sequences of creations, reads and (for the negations) copies, all contexts and docstrings", "why_tests_cant": "Tests read a template once on a fresh instance; the property is about any interleaving of reads on any number of instances and classes, with state on the template and the instance.", "anchors": ["effectful/handlers/llm/template.py:233-253", "effectful/handlers/llm/template.py:327-378", "effectful/handlers/llm/completions.py:545-550", "effectful/handlers/llm/completions.py:670-701", "effectful/ops/types.py:459-505"]}
{"id": "C86", "title": "Operation.define keeps name, signature, attributes and behaviour", "statement": "Operation.define(x, name=n) gives an operation with the name n, or else with the __name__ of x; with the signature and the attributes of the function or operation x (for an operation on an instance: without the first parameter, also when the signature was read before); unhandled it does what the function does and is a term where the function raises NotHandled; copies of operations and variables of types are always terms; builtin functions are called unless an argument has free variables; single-dispatch methods call the implementation for the class of the argument after self, including those registered later on the operation. It fails exactly for unions X | Y, single-dispatch class methods, callables without __name__ when no name is given, and values that are neither types nor callable. Otherwise not: a callable without signature, such as a partial or max, raises where a term should result; the name given for a class method is dropped; registering on a copy of a single-dispatch operation changes the original; a copy of a method operation cannot be an attribute of a class, and put there later it is the original on instances where that was used.", "quantifier": "for all functions, operations, types and method wrappers, names, dictionaries, arguments and registries", "why_tests_cant": "Tests define operations from a few functions and call them; the property is about any callable with any attributes, in any order of copying, reading signatures and registering.", "anchors": ["effectful/ops/types.py:81-108", "effectful/ops/types.py:138-359", "effectful/ops/types.py:361-373", "effectful/ops/types.py:45-61", "effectful/ops/types.py:459-505"]}
{"id": "C87", "title": "jax: named dimensions are dimensions", "statement": "A jax operation on arrays with named dimensions has as many results as the function, each with all names of the arguments, and each gives for all values of the names what the function gives for the entries at these values; dimensions of different sizes with one name raise ValueError, and with a variable without size the operation stays a term. bind_dims puts the dimensions of the given distinct names in front in their order, also if a name was used for several dimensions, and changes nothing else; bind_dims and unbind_dims are inverse. For a name that the array does not have bind_dims stays a term, a name given twice raises, and an array without named dimensions is returned as it is.", "quantifier": "all functions of arrays whose result shapes depend on the shapes, all numbers of arguments and results, all arrays, names, sizes and orders", "why_tests_cant": "Tests use a few functions on arrays with one or two names of fixed sizes; an order of dimensions confused in meshgrid, reshape or transpose shows only for some combinations of names, orders and unequal sizes.", "anchors": ["effectful/handlers/jax/_handlers.py", "effectful/handlers/jax/_terms.py"]}
{"id": "C88", "title": "The example rules for sums compute normal forms", "statement": "Evaluating an integer expression under any selection of the rules beta_add, commute_add, assoc_add, unit_add and sort_add keeps its value for all values of the variables. Under eager_mixed of lambda_.py evaluation always ends, in a left-associated sum with at most one number, first and not zero, and with neighbouring variables in the order of their ids; evaluating again changes nothing; two sums of numbers and variables have the same result exactly if they are equal for all values of the variables. Under the rules of the readme evaluation ends with at most one number, first, and the other summands in their order.", "quantifier": "all expressions of numbers, variables, sums and other operations, all values, all lists of these rules", "why_tests_cant": "The rules call the handled addition again, so that termination and the form of the result depend on all of them together and on the order of ids; tests can run a few sums with a few orders.", "anchors": ["docs/source/lambda_.py", "docs/source/readme_example.py"]}
{"id": "C89", "title": "minipyro: traces, replay, block, plates and elbo", "statement": "trace() changes nothing but its trace, which has the names of all calls of sample and param in the order of their first calls with the last answers. Under replay(t) the program gets the values of t for the names in it; a run that is traced and replayed returns the same value and uses no random number. SVI.step captures the parameters of guide and model and no samples. elbo is the log-density of the guide's samples under the guide less that of the model's under the model, the latter being the guide's where names are shared. A sample within plates is one sample of the distribution expanded to the size of each plate; plates end with their blocks, and sampling ends. A parameter keeps its value. Observed values are returned, seed fixes the generator, and a given store is used [fails: plates drop observations, seed always raises, an empty store is replaced].", "quantifier": "all programs, stacks of handlers, distributions, traces and states; elbo for programs without plates and repeated names, replaying a trace for programs without parameters and repeated names", "why_tests_cant": "Handlers compose in any order and a plate calls sample again through all of them, so that what is recorded or replayed depends on the stack; tests run a few models with a few stacks, and none with observations in plates or with seeds.", "anchors": ["docs/source/minipyro.py"]}
{"id": "C90", "title": "Beam search expands candidates by one choice and keeps the best", "statement": "Expanding a candidate replays its choices, adds one random choice if the program goes on to one, and gives the score of the whole path, whether the program stops at a further choice, and its result if it ends; it raises if there is nothing to choose from. The beam of beam_search always has at least one candidate and at most the width; each is the first one or a path of the program with its score and result; the best score is never lost in a round. What is returned is finished candidates with their results, if the width is not zero. The search ends [fails: never, if no path has a positive score], and candidates are different [fails].", "quantifier": "all programs of choose and score, widths, random choices, and implementations of the heap", "why_tests_cant": "No test runs the example; which candidates stay depends on the random choices, on the scores of all of them and on ties in the heap.", "anchors": ["docs/source/beam.py"]}
{"id": "C91", "title": "Semi-ring dictionaries of the example are added key by key; sums over them evaluate to what they mean", "statement": "In docs/source/semi_ring.py: adding two dictionaries of one type gives, at each key, the sum of the values or the value of the one that has the key, with the keys of the first before the new keys of the second; addition commutes and is associative up to the order of entries. `Sum(d, k, v, e2)` over a dictionary is at each key the sum, over the entries in order, of what e2 has there, and if it has a value then e2 is a dictionary for each entry. Two sums that keep keys, one after the other, equal one sum with the composed body (vertical fusion). If evaluating, under `eager`, a Sum over a dictionary or a Let of a value, with a body of values, variables, additions and Dict, gives a value, it is what the expression means. It does not hold that: an empty dictionary is a zero for integers; zeros are dropped; a repeated key in Dict adds up; a Sum over a dictionary may stand inside another Sum or a Let whose variable its body uses (it raises, although the expression has a value); `vertical_fusion` ever fuses a Dict of entries (its pattern is for a Dict of two arguments); or that the fused body would be right (the key variable is bound to the value of the first sum).", "quantifier": "all dictionaries with integer keys and values that are integers or such dictionaries to any depth; all bodies of the forms named; all bounds on calls.", "why_tests_cant": "The tests have three dictionaries of two entries and one body each, check keys rather than all values, never nest Sums, and the test for fusion passes without fusion.", "anchors": ["docs/source/semi_ring.py:SemiRingDict.__add__", "docs/source/semi_ring.py:eager_add", "docs/source/semi_ring.py:eager_dict", "docs/source/semi_ring.py:eager_sum", "docs/source/semi_ring.py:eager_let", "docs/source/semi_ring.py:vertical_fusion"]}
{"id": "C92", "title": "The lambda calculus example evaluates first-order expressions to what they mean, unless a function is constant", "statement": "Under `eager_mixed` of docs/source/lambda_.py, for expressions of integers, variables, additions, Let and applications of lambdas: if what is left after evaluation means an integer, the expression means that integer; names are never captured or confused; no free variables appear; and if the evaluated body of each lambda has its variable, an expression without free variables evaluates to the integer it means. Let has no such condition. It fails for constant functions: `App(Lam(x, 5), 3)` is left as `App(5, 3)`, because `eta_lam` replaces a lambda by its body if that is without the variable.", "quantifier": "all such expressions, with any names, also bound twice; all handlers of add that keep the value.", "why_tests_cant": "No test runs the example; the assertions at its end have one function of two arguments.", "anchors": ["docs/source/lambda_.py:beta_app", "docs/source/lambda_.py:beta_let", "docs/source/lambda_.py:eta_lam", "docs/source/lambda_.py:eager_mixed"]}
{"id": "C93", "title": "The result of a template is decoded from the last reply of the model", "statement": "If a reply has tool calls and all can be decoded, they are returned in order and its text is ignored; if one cannot, ToolCallDecodingError is raised for the first such. Without tool calls: with response type `str` a text that is not empty is the result as it is; with any other type the text must be JSON of an object with a field `value`, the result is the decoded field, other fields are ignored, and anything else raises ResultDecodingError; a value encoded and boxed is decoded again. The result of a template is that of the last reply, one without tool calls, whose message is the last of the conversation. It does not hold that an empty answer can be returned (AssertionError, which RetryLLMHandler does not retry), or that only answers are taken for answers (if the text is empty, the reasoning text is).", "quantifier": "all replies, response types, decoders, numbers of rounds and retries.", "why_tests_cant": "The tests replay some recorded replies; none has an empty text, a reasoning text, extra fields or several calls of which a later one is bad.", "anchors": ["effectful/handlers/llm/completions.py:call_assistant", "effectful/handlers/llm/completions.py:_BoxedResponse", "effectful/handlers/llm/completions.py:LiteLLMProvider._call"]}
{"id": "C94", "title": "Images and complex numbers survive encoding and decoding", "statement": "If an image can be saved as PNG and what is saved is opened as the image, then decoding its encoding gives the image. A data URI of an image in any format, in base 64, given as a string or in an object, is opened as exactly the bytes it has; base 64 decodes to the bytes that were encoded and different bytes have different encodings. URLs that are no data URIs of images, that have no comma or more than one, or whose data are not ASCII, are rejected. A complex number is decoded from its encoding, with fields in any order. It does not hold that a decoded image is valid itself, that a data URI without base 64 is rejected or read as it is, or that corrupt base 64 is rejected.", "quantifier": "all byte strings, images, formats, URLs and complex numbers.", "why_tests_cant": "The tests encode a handful of small images and numbers; the length of the data modulo three, the bytes and malformed URLs are unbounded.", "anchors": ["effectful/handlers/llm/encoding.py:_serialize_image", "effectful/handlers/llm/encoding.py:_validate_image", "effectful/handlers/llm/encoding.py:_serialize_complex", "effectful/handlers/llm/encoding.py:_validate_complex"]}
{"id": "C95", "title": "What the model is told about errors", "statement": "With RetryLLMHandler every request after the first has the messages of the one before, the rejected reply, and a message with the text of the error: as the answer to the tool call that could not be decoded, with its id, or from the user if the result could not be decoded. No request follows one for which the stop condition holds or whose reply is accepted; the history then gets the accepted reply only, and nothing if an error is raised, which is the last one. A tool that raises one of the exceptions to be caught gives a tool message with its id, its name, the text of the error and, if asked for, the traceback of the error; other exceptions are raised and leave the history as it was. It does not hold that the feedback for a rejected reply has the traceback of its error, that exceptions which are no Exception or errors of encoding a tool's result are caught, or that a reply is appended when it has the id of an earlier message.", "quantifier": "all histories, sequences of replies, stop conditions, errors, tools and settings.", "why_tests_cant": "The tests look for the word Traceback in one feedback message and have at most a few failing replies; the text after it, and other sequences of errors, are not looked at.", "anchors": ["effectful/handlers/llm/completions.py:RetryLLMHandler", "effectful/handlers/llm/completions.py:ToolCallDecodingError", "effectful/handlers/llm/completions.py:ResultDecodingError", "effectful/handlers/llm/completions.py:ToolCallExecutionError", "effectful/handlers/llm/completions.py:call_tool"]}
{"id": "C96", "title": "Sample sites under PyroShim", "statement": "A pyro.sample statement that gets to a PyroShim performs pyro_sample exactly once, however many shims are installed; only the innermost one takes notice. Every trace that the statement gets to, inside or outside of the shim, has exactly one record of it. Its value is the one that conditions or the observation give (the outermost decides), or else a draw: traces outside of the shim have it with positional dimensions, the result and traces inside with its names. A handler of pyro_sample that returns a value decides: nothing is drawn or recorded. Statements that do not get to a shim, subsamples of plates and factors are those of Pyro. A condition may be installed inside or outside of the shim without change to the result. A site that is replayed from a guide trace outside of the shim has the value of the guide with its names, and nothing is drawn. It does not hold that a direct call of pyro_sample runs its handlers once, that traces outside of the shim always have positional values, that a replayed value has its names if the guide trace was made or replayed under another shim (so two runs of a pyro_module_shim with one guide trace differ), or that the statement ends if replay is inside of the shim.", "quantifier": "all stacks of shims, traces, conditions, blocks and replays, all sequences of handlers of pyro_sample, names, values, observations and states.", "why_tests_cant": "The tests run a few models under one shim and one trace; the two-stage protocol goes wrong only for combinations of handlers, such as a second shim with the guide trace of a first.", "anchors": ["effectful/handlers/pyro.py:pyro_sample", "effectful/handlers/pyro.py:PyroShim._pyro_sample", "effectful/handlers/pyro.py:PyroShim._pyro_post_sample", "effectful/handlers/pyro.py:pyro_module_shim"]}
{"id": "C97", "title": "Iterators that are terms", "statement": "evaluate of a term with iter_ and next_ advances the iterators that are given for its variables at the occurrences of next in the term, from left to right: an occurrence gets the item whose number is the number of occurrences before it on the same iterator. If the result of a straight-line program of iter and next has each item that was taken exactly once and in the order in which the items were taken, evaluating the result on terms gives what the program gives on the iterators, and leaves the iterators as the program does; if there are not enough items both raise after the same readings. iter and next of an item that is no stream take the item and raise TypeError. With containers instead of iterators every next(iter(x)) is the first item; values agree with the program if each iterator is advanced once, in whatever order and however often items are used. list of an iterator ends with what is left. It does not hold that the order of the program is kept, that an item used twice is taken once, that an unused item is taken, that two next of one iterator of a container give two items, that the exception at the end is StopIteration (an argument turns it into RuntimeError), or that a loop over a term ends.", "quantifier": "all straight-line programs of iter and next, all iterators (also shared between variables), containers, items, result expressions and states.", "why_tests_cant": "The tests take one item of one iterator; what goes wrong depends on how often and in what order the items occur in the result.", "anchors": ["effectful/ops/syntax.py:_IterableTerm.__iter__", "effectful/ops/syntax.py:_IteratorTerm.__next__", "effectful/ops/semantics.py:_evaluate_term"]}
{"id": "C98", "title": "to_event and expand of distribution terms keep the shape laws of numpyro", "statement": "The laws that the repository's tests state: d.to_event(k) has the last k batch dimensions of d as its first event dimensions and the rest as its batch shape, d.expand(s) has batch shape s and the event shape of d. They hold for distribution terms with any named dimensions, for any nesting of to_event(k) with given k on distributions whose array parameters have the same number of batch dimensions, and for expand of plain distributions to shapes that the parameters broadcast to. to_event(k).to_event(l) has the shapes of to_event(k + l). log_prob of such a term has the names of the distribution and, for each value of the names, the shape that log_prob has for this value. It does not hold for to_event() without number, which makes the names part of the event, so that log_prob raises IndexError; to_event with too large a number does not raise if there are names; expand after to_event does nothing.", "quantifier": "all numbers and sizes of names, shapes of parameters, event shapes, nestings of to_event, target shapes and shapes of values.", "why_tests_cant": "The tests have the laws for one distribution without names and two shapes; the tests with names are marked as expected to fail.", "anchors": ["effectful/handlers/numpyro.py:_DistributionMethodTerm", "effectful/handlers/numpyro.py:_DistributionTerm.expand", "effectful/handlers/numpyro.py:_DistributionTerm.to_event", "effectful/handlers/numpyro.py:_DistributionTerm.log_prob", "effectful/handlers/numpyro.py:expand_to_batch_shape"]}
{"id": "C99", "title": "unbind_dims of a distribution gives slices, and bind_dims undoes it", "statement": "unbind_dims(d, *names) of a distribution term names the first dimensions of every array parameter: for each value of the names, every parameter is the slice at this place; scalars and numbers stay, and Independent and to_event are kept. Arrays without names are rejected with ValueError exactly if they do not start with the same sizes, one for each name. bind_dims with the same names gives the parameters back (scalars become arrays of the sizes of the names), and unbind_dims after bind_dims of all names gives the same distribution for all values of the names. A name given twice to bind_dims counts once. It does not hold for parameters that have names already: they are left alone, so that unbind_dims(unbind_dims(d, a), b) has no name b and unbind_dims(bind_dims(d, a), a) has no name a if d has another name; nor for distributions with scalars only, where the names are dropped and binding them raises KeyError; nor for parameters that numpyro would broadcast, where a wrong slice is taken or ValueError is raised.", "quantifier": "all distribution terms (numbers, scalars and arrays of any shape, any nesting of Independent/to_event), lists of distinct names, sizes, orders of iteration of sets and values of the names.", "why_tests_cant": "The test test_dist_to_named only checks the set of names of one sample for parameters with full batch shape; entries, round trips, named parameters and broadcast parameters are not looked at, and shapes and nestings are unbounded.", "anchors": ["effectful/handlers/numpyro.py: _unbind_distribution 55-102", "effectful/handlers/numpyro.py: _bind_dims_distribution 105-145", "effectful/handlers/numpyro.py: Independent 1160-1177"]}
{"id": "C100", "title": "Functions and operations passed as arguments have the types of their signatures", "statement": "The type inferred for a function is Callable[[A1, ..., An], R] exactly if the result and all parameters are annotated and all parameters take one positional argument; then calls with n positional arguments bind them to these parameters. An operation is accepted for a parameter of type Callable wherever a function with the same signature is. If an operation applied to positional and keyword arguments has a type, its annotations describe all arguments for some values of the type variables, variadic and keyword-only parameters included, and the type is the annotation of the result for these values. If the result has no annotation, the type is object, and if its annotation has no type variables, it is the annotation, whatever the arguments are. The type of f(...) for a callable f is the type of the results of f, and the type of deffn(body, ...)(...) is the type of body, whatever the arguments are. If a function is accepted for a parameter Callable[[A1, ...], R], and takes every Ai, its results have the type R with the type variables replaced. Failing: parameters with defaults count as required, functions with required keyword-only parameters are accepted everywhere, functions that take more than needed are rejected, objects with an annotated __call__ lose their class, and the order of the parameters of an operation decides whether a call has a type.", "quantifier": "all signatures, all argument types without type variables, all class hierarchies in which Operation[P, R] is below Callable[P, R].", "why_tests_cant": "The tests unify a handful of pairs of callable types; there is no test with defaults, keyword-only parameters or subclasses in parameters of functions.", "anchors": ["effectful/internals/unification.py:nested_type", "effectful/internals/unification.py:_unify_signature", "effectful/internals/unification.py:_unify_generic", "effectful/ops/types.py:Operation.__type_rule__", "effectful/ops/syntax.py:deffn", "effectful/ops/syntax.py:_CallableTerm.__call__"]}
{"id": "C101", "title": "Every snippet that runs was type-checked after the snippets that ran before it", "statement": "Under PythonRepl, for a template whose definition can be found in its source: every snippet with statements that exec_code runs was decoded from the same reply, parses, can be nested, compiles, and has passed the type check in the body of the template after the snippets run in earlier rounds. A reply of which anything is rejected has nothing executed, and leaves no trace in the session; a reply is accepted exactly if each of its tool calls is acceptable, and its calls are executed in order; nothing happens after SystemExit or an error of another tool that is not caught, while errors in snippets do not end the call. A snippet is rejected for its syntax before it is checked, and for the check before it is compiled. If the model sends at most one snippet in a reply, the check is after all snippets that ran before. Failing: two snippets in one reply are both checked before the first one runs, so a second one that uses the first one's variables is rejected, and one that uses what the first has deleted is accepted; a snippet that raised counts as if it had run to its end; a template whose source has changed has all its snippets rejected as if that were the model's mistake.", "quantifier": "all language models, parsers, type checkers, compilers, tools and snippets, all numbers of rounds and attempts.", "why_tests_cant": "The tests decode snippets one at a time with a fixed list of earlier ones; there is no test of replies with several snippets, of rejected replies in a call of a template, or of snippets after one that raised.", "anchors": ["effectful/handlers/llm/encoding.py:_pydantic_type_code", "effectful/handlers/llm/evaluation.py:_splice_repl", "effectful/handlers/llm/evaluation.py:_recover_template_def", "effectful/handlers/llm/evaluation.py:ReplSession.exec_code", "effectful/handlers/llm/completions.py:call_assistant", "effectful/handlers/llm/completions.py:LiteLLMProvider._call", "effectful/handlers/llm/completions.py:RetryLLMHandler"]}
{"id": "C102", "title": "The arguments of a term are the call's, in one form", "statement": "A call of an operation without handler or default raises TypeError unless it fits the operation's signature. Otherwise the args of its term are the values of the positional parameters in order and those of *args, its kwargs the values of the keyword-only parameters in order and those of **kwargs, with defaults filled in. So two calls make terms with equal arguments exactly if each parameter has the same value in both, evaluating the term keeps its arguments, and a handler whose parameters have the same kinds and names gets on evaluation of the term the values that the operation's parameters had in the call. There is one set of bound variables for each argument, that of its parameter. Failing: a handler with another default, without a parameter that has a default, or with keyword-only parameters, behaves differently for the call and for its term; keywords named self, op, __dispatch, func or ty raise TypeError.", "quantifier": "all signatures with any kinds of parameters and defaults, and all positional and keyword arguments.", "why_tests_cant": "Tests call operations with one or two positional arguments; signatures, defaults and ways to pass arguments are infinitely many.", "anchors": ["effectful/ops/syntax.py:defdata", "effectful/ops/types.py:Operation.__fvs_rule__", "effectful/ops/types.py:Operation.__default_rule__", "effectful/ops/types.py:Operation.__call__", "effectful/ops/semantics.py:_evaluate_term", "effectful/internals/product_n.py:CallByNeed"]}
{"id": "C103", "title": "A call that nothing handles gives a term whose class fits the annotated result", "statement": "Whether a call of an operation without handler or default gives a term depends on the annotation of its result: a term results exactly if the annotation (with type variables replaced by the types of the arguments) stands for one class, and functools.singledispatch finds one nearest class among those registered with defdata. The term is one of that nearest class, every value the annotation describes is an instance of it, and typeof of the term is a subclass of it. Failing: int | None raises TypeError; Optional[int], NewType, type aliases, Never or Self raise an error of dispatch; Literal[0, True] raises TypeError; T | int gives a term or raises depending on the arguments; an unsolved type variable with constraints counts as the first of them; a class with __call__ and __iter__ that inherits neither Callable nor Iterable raises RuntimeError.", "quantifier": "all annotations of results, all solutions for their type variables, all class hierarchies and registries with object.", "why_tests_cant": "Annotations and class hierarchies are infinitely many; the tests annotate results with int, bool, lists and type variables.", "anchors": ["effectful/ops/types.py:Operation.__type_rule__", "effectful/ops/semantics.py:_simple_type", "effectful/ops/semantics.py:typeof", "effectful/ops/syntax.py:defdata", "effectful/internals/unification.py:substitute"]}
{"id": "C104", "title": "bind_dims and unbind_dims of a container act on each array in it", "statement": "For jax, bind_dims(t, *names) and unbind_dims(t, *names) of a nested container (tuple, list, dict, None inside) give a container of the same structure that holds, at each place, what the operation gives for the object there; they raise what the first object raises. If all arrays have the names, each gets their dimensions in front, in their order, with the entries for their values, and unbind_dims and bind_dims undo each other. A repeated name, or more names than an array has dimensions in unbind_dims, is an error. Failing: an array without the name stays as it is and one with only other names becomes a term, so that the items no longer agree in their first dimensions; an empty container or None raises TypeError at the top though it is accepted inside; a number inside raises TypeError; a function inside is called with the type of the first name.", "quantifier": "all nested containers of any size and kind, all arrays, names and sizes.", "why_tests_cant": "Nestings, shapes and lists of names are infinitely many; tests use a few containers of arrays that all have the names.", "anchors": ["effectful/handlers/jax/_handlers.py:bind_dims", "effectful/handlers/jax/_handlers.py:unbind_dims", "effectful/handlers/jax/_terms.py:_bind_dims_array", "effectful/handlers/jax/_terms.py:_unbind_dims_array", "effectful/ops/types.py:_CustomSingleDispatchCallable"]}
{"id": "C105", "title": "Handling variables in stages is handling them at once", "statement": "Evaluate an expression under handlers that return expressions for some of its variables, then evaluate the result under handlers for other variables. The result is one capture-avoiding substitution: each variable of the first stage is replaced by its expression, in which the variables of the second stage are replaced by theirs, and each variable of the second stage that is left by its own. It is alpha-equivalent to one evaluation under all the handlers, if those of the first stage return expressions already evaluated under the second stage; and, if these do not mention variables of the second stage, to one evaluation under the handlers as they are. The order of two stages does not matter if they handle different variables and no returned expression mentions a variable of the other stage. Binders in the expression may bind variables that the second stage handles or uses: the first evaluation renames them. Failing: with {x: y(), y: z()} installed at once, fn(x(), y()) is fn(y(), z()), in stages it is fn(z(), z()); in the other order fn(y(), z()).", "quantifier": "all well-formed expressions, including nested binders and containers, and all finite sets of handlers for variables without parameters.", "why_tests_cant": "Expressions, nestings of binders and sets of handlers are infinitely many; tests install one or two handlers over a fixed term.", "anchors": ["effectful/ops/semantics.py:evaluate", "effectful/ops/semantics.py:_evaluate_term", "effectful/ops/semantics.py:handler", "effectful/ops/syntax.py:defdata"]}
{"id": "C106", "title": "Annotations accept every type that fits", "statement": "If the type of an argument fits an annotation - a variable fits anything; classes by issubclass; aliases by their arguments, by the keys or items they iterate over, or by their first suitable base; a union on the left by some member and on the right by all - then unify(annotation, type) succeeds and binds only variables of the annotation. On types without variables unify decides this relation: it returns the given substitution if the type fits and raises TypeError if not, whatever the order of the members of unions.", "quantifier": "all patterns without repeated variables, all types without variables, all tables of classes, all substitutions not binding the variables of the pattern", "why_tests_cant": "ranges over all type expressions and class hierarchies; rejecting too much is seen only with the particular pair of types rejected", "anchors": ["effectful/internals/unification.py: unify, _unify_typevar, _unify_sequence, _unify_union, _unify_generic, _unify_signature"]}
{"id": "C107", "title": "A program on tensors with named dimensions computes what loops over the names compute", "statement": "A program built from tensors indexed with names, names used as numbers, functions of torch or jax, bind_dims and unbind_dims has a value: a tensor with the shape and the named dimensions that the program shows, whose entry, for all values of the names, is the one computed by the loops: functions act on the entries at these values, an index into bound dimensions gives the values of the bound names, and unbound dimensions are indexed at the values of the names. Names used for several dimensions of one tensor, names used as numbers and names bound again later are included. If all names are bound the value is a plain tensor; programs with the same loops have the same value on torch and on jax; and the product of matrices written with names is the product of matrices.", "quantifier": "all programs of any depth, all functions whose entries depend on the entries of the arguments, all names, sizes and orders of dimensions, all values of the names in range", "why_tests_cant": "Tests check single operations and a few fixed programs; that operations, binding and unbinding compose for programs of any depth and any orders of names needs an invariant and an induction.", "anchors": ["effectful/handlers/torch.py: _register_torch_op, bind_dims, unbind_dims, sizesof", "effectful/handlers/jax/_handlers.py: _register_jax_op", "effectful/handlers/jax/_terms.py: _bind_dims_array, _unbind_dims_array"]}
{"id": "C108", "title": "The pretty printer of terms numbers operations by the first call", "statement": "In the text that prettyprinter makes of a term, each operation that is called has its name and, if other operations with the same name are called before it is called first, reading from left to right, an exclamation mark and their number. So it has one name in the whole text, different operations have different names if no name has an exclamation mark, and an operation that is the only one of its name has its plain name. Operations that are values, such as bound variables, have no numbers, and terms outside of terms are numbered each for itself.", "quantifier": "all terms of any depth and width, all names of operations, all ways to lay out calls, containers and other values", "why_tests_cant": "The number of an operation depends on all calls before it in a table that is changed while printing; tests see a few small terms.", "anchors": ["effectful/ops/types.py: pretty_term"]}
{"id": "C109", "title": "Tensors may be given after the program that uses them has run", "statement": "A program built from tensors with named dimensions, names, functions of torch or jax, bind_dims, unbind_dims and variables for tensors that are not known yet gives a term. When the term is evaluated with values for the variables, all at once or some at a time in any order, the last result is the tensor that the program computes with all values, as said by the loops over the names, provided that the values do not use names which the program binds. Until then the term has only variables without a value, every operation left in it depends on such a variable, and its shape, names and loops for any values are those of the program. A call raises ValueError if a name has different sizes in two tensors anywhere in its arguments. The product of matrices that are given later, in either order, is the product of matrices.", "quantifier": "all programs of any depth for which C107 holds with the values, all values of the variables, all sequences of evaluations that give them, all supplies of new names", "why_tests_cant": "What is a term and what is computed early depends on the whole program and on which values are known; binders are renamed at every stage, and sizes of names are checked across all nested tensors. Tests evaluate a few fixed terms once.", "anchors": ["effectful/handlers/torch.py: _register_torch_op, _partial_eval, bind_dims, unbind_dims", "effectful/handlers/jax/_handlers.py: _register_jax_op, _partial_eval", "effectful/handlers/jax/_terms.py: _bind_dims_array, _unbind_dims_array", "effectful/ops/semantics.py: evaluate"]}
{"id": "C110", "title": "A function of torch or jax is one operation, which can be handled", "statement": "A program that calls functions of the library on terms gives a term, whose value, when its variables are known, is what the functions compute on the values. All calls of one function, at any time, have the same operation; two functions have the same operation only if both are __getitem__; and so a program that is run again builds the same term, and makes no new operation. A handler of the operation of a function stands for this function wherever it is called, and for nothing else; if it is there only when a term is evaluated, it stands for the calls in which something was unknown.", "quantifier": "all programs of nested calls of any depth, all sequences of runs and look-ups before, between and after, all sets of known variables, all handlers, all functions of the library and all functions made on the fly", "why_tests_cant": "That two operations are the same depends on everything that was called before, since the table is filled as programs run; tests start with a fresh table and look at single calls. That nothing is ever removed from the table shows only in long runs.", "anchors": ["effectful/handlers/torch.py: _register_torch_op, _torch_function, torch_getitem, grad, jacfwd, jacrev, hessian, jvp, vmap", "effectful/handlers/jax/_handlers.py: _register_jax_op, jax_getitem", "effectful/handlers/jax/_terms.py: _IndexUpdateRef.set", "effectful/handlers/jax/numpy/__init__.py"]}
{"id": "C111", "title": "Prompts are format strings: braces, conversions and format specifications", "statement": "The docstring of a template is read as a format string: doubled braces stand for braces, and a field consists of a name, in which brackets may hold anything, an optional conversion and an optional format specification with balanced braces. A docstring of this form is taken apart into exactly the characters and fields that were written; any other is rejected when the template is defined. The message has the characters as they are and, in the place of each field, its value with the texts converted by s, r or a and laid out as the specification says (fill character, alignment, width, precision), and there is a message exactly if each field has a value and a specification for strings.", "quantifier": "all docstrings, all names, conversions and specifications, all values and encodings of them, all contexts", "why_tests_cant": "The grammar is recursive, with braces within specifications and brackets within names, and each specification combines six optional parts; tests use a few plain fields.", "anchors": ["effectful/handlers/llm/completions.py: call_user", "effectful/handlers/llm/template.py: Template._validate_prompt", "effectful/handlers/llm/encoding.py: to_content_blocks"]}
{"id": "C112", "title": "The indentation of a docstring is not part of the prompt", "statement": "Before a docstring is formatted, the spaces and tabs that all its lines begin with are removed, as many as possible; lines of spaces and tabs become empty, and nothing else changes. So relative indentation is kept, moving a template further to the right changes nothing, and a docstring without common indentation is used as it is. Fields that are on one line are the same before and after, so that the docstring that is checked at definition and the one that is used at a call refer to the same variables. Values are inserted after this, and their own indentation is kept.", "quantifier": "all docstrings, indentations and mixtures of spaces and tabs, all values and contexts", "why_tests_cant": "Tests have a few docstrings with four or eight spaces; mixed tabs, blank lines, braces at the beginning of lines and lines with less indentation combine without bound.", "anchors": ["effectful/handlers/llm/completions.py: call_user", "effectful/handlers/llm/encoding.py: _serialize_tool", "effectful/handlers/llm/template.py: Template._validate_prompt"]}
{"id": "C113", "title": "The rules for sums in the introduction give a normal form up to the order of variables", "statement": "Under the handlers of part 3 of the introduction (`add_stack`), every expression of sums, numbers, variables and other operations with one argument has one value: a sum that associates to the left, with at most one number, at the beginning, with the same variables as often, and with the same meaning. Two variables have one order, whichever is written first, and the two expressions of the notebook's last test have the same value. The rule for the order of further variables never applies, so equal sums may have different values; and with other operations of two arguments sums change their meaning.", "quantifier": "all expressions, all variables and their ids, all meanings of the other operations", "why_tests_cant": "The notebook has one pair of expressions; expressions are unboundedly large, rules call add again, and the order depends on ids that differ from run to run.", "anchors": ["docs/source/introduction.ipynb: commutative_add, associative_add, associative_commutative_add, add_stack"]}
{"id": "C114", "title": "JSON text carries encoded values: what is written is read back", "statement": "The text that json.dumps writes for an encoded value (in prompts, in tool results and as the arguments of tool calls) is one line of printable ASCII and denotes the value according to the grammar of JSON; json.loads accepts exactly the texts of this grammar, with any white space and any choice of escapes, and gives the value they denote, where a repeated key has the place of its first and the value of its last occurrence. So values are read back as they were written, different values have different texts, and the content blocks of a value that is not a string, one after the other, are read back as the value. Strings at the top are not quoted, so that they may look like other values.", "quantifier": "all encoded values of any depth, all strings of code points including surrogates, all texts, all white space and escapes, all ways to write and read floats that agree", "why_tests_cant": "Values and texts are recursive and unboundedly large; surrogates, escapes, exponents and white space combine in ways that a few sample values do not reach.", "anchors": ["effectful/handlers/llm/encoding.py: to_content_blocks", "effectful/handlers/llm/encoding.py: _serialize_tool_call", "effectful/handlers/llm/encoding.py: _validate_tool_call", "effectful/handlers/llm/completions.py: call_assistant"]}
{"id": "C115", "title": "Tool calls survive their text form", "statement": "The arguments of a tool call arrive as text. For a tool whose parameters can all be given by name, the call is decoded exactly if the text is a JSON object whose members are parameters with values of their types and include the required ones; then each parameter that is given is bound to its value. White space, escapes and the order of the arguments make no difference. A text that is not JSON, a text that is no object, an unknown name and something that is no tool are rejected, each with its own error, names before texts. A decoded call that is serialized again and sent back is decoded to the same call.", "quantifier": "all texts, all tools with parameters given by name, all contexts, all codecs, all orders of arguments", "why_tests_cant": "There are unboundedly many texts for one call, by white space, escapes and order; tests send the one that json.dumps writes.", "anchors": ["effectful/handlers/llm/encoding.py: _validate_tool_call", "effectful/handlers/llm/encoding.py: _serialize_tool_call"]}
{"id": "C116", "title": "The signature shown to the model determines the type of the function to write", "statement": "For a result type Callable[[A, B], R], the schema that is sent to the model contains the signature as it is written in Python, for types without arguments. The signature determines the number of parameters, the names of their types and the name of the result's type; so for classes with different names, different types of functions have different signatures.", "quantifier": "all lists of parameter types, all result types, all class names that are words", "why_tests_cant": "There are infinitely many types of functions, and that two of them have the same text can only be ruled out by comparing all pairs.", "anchors": ["effectful/handlers/llm/encoding.py: _create_typed_synthesized_function", "effectful/handlers/llm/encoding.py: _pydantic_callable"]}
{"id": "C117", "title": "Methods of a distribution are computed exactly when everything is known, whenever that is", "statement": "log_prob(value), sample(key) and the other methods of a numpyro distribution with effectful parameters are computed if all parameters, those of distributions inside included, are known and the value is an array, with or without names; otherwise the call is a term. Evaluating that term with values for the variables gives what the method of the evaluated distribution gives; so it is computed as soon as all variables are known. Giving values in several stages is the same as giving all of them at once.", "quantifier": "all distributions nested to any depth, all parameters with variables and operations in them, all methods, all values for variables", "why_tests_cant": "ranges over all expressions as parameters, and over all ways to give values to some of the variables; tests have single distributions with one unknown", "anchors": ["effectful/handlers/numpyro.py: _DistributionTerm._is_eager, log_prob, sample, rsample, mean", "effectful/handlers/jax/_handlers.py: is_eager_array"]}
{"id": "C118", "title": "Scoped[...] takes type variables and unions of them, however they are written", "statement": "Scoped[x] is accepted exactly for a type variable or a non-empty union of type variables, and its scope is the set of the type variables that are written; order, nesting and repetitions do not matter, X | Y and Union[X, Y] are the same, and the scope of Scoped[x | y] is the union of those of Scoped[x] and Scoped[y]. Everything else raises TypeError.", "quantifier": "all type expressions made of type variables, classes, | and typing.Union", "why_tests_cant": "there are infinitely many ways to write a union, and two kinds of unions in Python that behave differently; the tests use A and A | B", "anchors": ["effectful/ops/syntax.py: Scoped.__class_getitem__"]}
{"id": "C119", "title": "Tools that are passed to and from the model stay the same tools", "statement": "A tool that is an argument or a result is shown with its description and the schema of its parameters, under the name that the context has for it. Decoding gives the same tool back, whatever its own name is; in another context, exactly if that has the tool under the same name. Different tools of a context are shown differently. Only tools are decoded; a name that is unknown is an error.", "quantifier": "all contexts, tools, names, descriptions and schemas", "why_tests_cant": "ranges over all contexts, with shadowed and repeated names; tests have contexts of one or two tools", "anchors": ["effectful/handlers/llm/encoding.py: _serialize_tool, _validate_tool, _pydantic_type_tool"]}
{"id": "C120", "title": "The options of the provider are sent with every request", "statement": "The options given to LiteLLMProvider(model, **options) are sent to the language model in every request, each with its value, and no others are; the model, the messages, the format of the answer and the tools are those of the call.", "quantifier": "all options that litellm.completion accepts, all models and calls", "why_tests_cant": "ranges over all sets of options; which of them get lost depends on the order of the parameters of litellm.completion; tests use one option", "anchors": ["effectful/handlers/llm/completions.py: LiteLLMProvider.__init__, LiteLLMProvider._call, call_assistant, completion"]}
