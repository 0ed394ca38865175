"""Compare the table of default arguments in lean/Verif/Model/Registry.lean with the environment classes.

The sources are parsed, not executed.  Usage: python3 tools/registry.py [path of the repository]
Prints every difference; prints the number of compared classes and fails if there is one.
"""

import ast
import re
import sys
from fractions import Fraction
from pathlib import Path

REPO = Path(sys.argv[1] if len(sys.argv) > 1 else "/repo") / "src" / "gym_electric_motor"
LEAN = Path(__file__).resolve().parent.parent / "lean" / "Verif" / "Model" / "Registry.lean"

MOTORS = {
    "DcPermanentlyExcitedMotor": "permExDc", "DcExternallyExcitedMotor": "extExDc", "DcSeriesMotor": "seriesDc",
    "DcShuntMotor": "shuntDc", "ExternallyExcitedSynchronousMotor": "eesm", "DoublyFedInductionMotor": "dfim",
    "SquirrelCageInductionMotor": "scim", "PermanentMagnetSynchronousMotor": "pmsm", "SynchronousReluctanceMotor": "synRm",
}
SYSTEMS = {
    "permExDc": "DcMotorSystem", "extExDc": "DcMotorSystem", "seriesDc": "DcMotorSystem", "shuntDc": "DcMotorSystem",
    "eesm": "ExternallyExcitedSynchronousMotorSystem", "dfim": "DoublyFedInductionMotorSystem",
    "scim": "SquirrelCageInductionMotorSystem", "pmsm": "SynchronousMotorSystem", "synRm": "SynchronousMotorSystem",
}
CONVERTERS = {"FourQuadrantConverter": "four", "B6BridgeConverter": "b6"}


def num(node):
    if isinstance(node, ast.Constant):
        return Fraction(repr(node.value))
    if isinstance(node, ast.BinOp) and isinstance(node.op, ast.Div):
        return num(node.left) / num(node.right)
    if isinstance(node, ast.UnaryOp) and isinstance(node.op, ast.USub):
        return -num(node.operand)
    raise ValueError(ast.dump(node))


def name(node):
    return node.attr if isinstance(node, ast.Attribute) else node.id


def dictionary(node):
    if isinstance(node, ast.Dict):
        return {k.value: v for k, v in zip(node.keys, node.values)}
    assert name(node.func) == "dict" and not node.args, ast.dump(node)
    return {k.arg: k.value for k in node.keywords}


def wiener(args):
    unknown = set(args) - {"reference_state", "sigma_range", "limit_margin"}
    assert not unknown, unknown
    sigma = tuple(map(num, args["sigma_range"].elts)) if "sigma_range" in args else (Fraction(1, 1000), Fraction(1, 10))
    margin = tuple(map(num, args["limit_margin"].elts)) if "limit_margin" in args else None
    return args["reference_state"].value, sigma, margin


def converter_class(cls):
    for prefix in ("Cont", "Finite"):
        if cls.startswith(prefix):
            return prefix, CONVERTERS.get(cls[len(prefix):], cls[len(prefix):])
    raise ValueError(cls)


def parse_class(cls):
    init = next(f for f in cls.body if isinstance(f, ast.FunctionDef) and f.name == "__init__")
    names = [a.arg for a in init.args.args][1:]
    defaults = dict(zip(names[len(names) - len(init.args.defaults):], init.args.defaults))
    local = {}
    for s in init.body:
        if isinstance(s, ast.Assign):
            local.setdefault(s.targets[0].id, s.value)
    system = local["physical_system"]
    parts = {k.arg: k.value for k in system.keywords}
    out = {"system": name(system.func)}
    assert name(parts["tau"]) == "tau"
    out["tau"] = num(defaults["tau"])

    _, arg, cls_, args = parts["supply"].args
    assert (arg.id, name(cls_)) == ("supply", "IdealVoltageSupply")
    out["supply"] = num(dictionary(args)["u_nominal"])

    _, arg, cls_, args = parts["converter"].args
    assert arg.id == "converter"
    prefix, kind = converter_class(name(cls_))
    args = dictionary(args)
    if kind == "MultiConverter":
        subs = args.pop("subconverters")
        subs = local[subs.id] if isinstance(subs, ast.Name) else subs
        kinds = []
        for sub in subs.elts:
            if isinstance(sub, ast.Call):
                assert not sub.args and not sub.keywords, ast.dump(sub)
                sub = sub.func
            p, k = converter_class(name(sub))
            assert p == prefix
            kinds.append(k)
        out["converter"] = ("multi", kinds)
    else:
        out["converter"] = ("single", [kind])
    assert not args, args
    out["action"] = {"Cont": "continuous", "Finite": "finite"}[prefix]

    _, arg, cls_, args = parts["motor"].args
    assert arg.id == "motor" and not dictionary(args)
    out["motor"] = MOTORS[name(cls_)]

    _, arg, cls_, args = parts["load"].args
    assert arg.id == "load"
    args = dictionary(args)
    if name(cls_) == "ConstantSpeedLoad":
        out["load"] = ("constantSpeed", num(args.pop("omega_fixed")))
    else:
        assert name(cls_) == "PolynomialStaticLoad"
        pars = dictionary(args.pop("load_parameter")) if "load_parameter" in args else {}
        out["load"] = ("polynomial", [(k, num(v)) for k, v in pars.items()])
    assert not args, args

    _, arg, cls_, args = parts["ode_solver"].args
    assert name(cls_) == "ScipyOdeSolver" and not dictionary(args)

    limited, squares = [], []
    for c in defaults["constraints"].elts:
        if isinstance(c, ast.Constant):
            limited.append(c.value)
        elif name(c.func) == "LimitConstraint":
            limited += [e.value for e in c.args[0].elts]
        else:
            assert name(c.func) == "SquaredConstraint"
            squares.append([e.value for e in c.args[0].elts])
    out["limited"], out["squares"] = limited, squares

    _, arg, cls_, args = local["reference_generator"].args
    args = dictionary(args)
    if name(cls_) == "MultipleReferenceGenerator":
        subs = args.pop("sub_generators")
        subs = local[subs.id] if isinstance(subs, ast.Name) else subs
        gens = []
        for sub in subs.elts:
            assert name(sub.func) == "WienerProcessReferenceGenerator" and not sub.args
            gens.append(wiener({k.arg: k.value for k in sub.keywords}))
        assert not args, args
        out["references"] = ("multiple", gens)
    else:
        assert name(cls_) == "WienerProcessReferenceGenerator"
        out["references"] = ("one", [wiener(args)])

    _, arg, cls_, args = local["reward_function"].args
    assert name(cls_) == "WeightedSumOfErrors"
    args = dictionary(args)
    out["weights"] = [(k, num(v)) for k, v in dictionary(args.pop("reward_weights")).items()]
    assert not args, args

    call = next(s.value for s in init.body if isinstance(s, ast.Expr) and isinstance(s.value, ast.Call))
    wrappers = next(k.value for k in call.keywords if k.arg == "physical_system_wrappers")
    out["wrappers"] = [] if isinstance(wrappers, ast.Name) else [ast.unparse(e) for e in wrappers.right.elts]
    for k in call.keywords:
        if k.arg not in (None, "physical_system_wrappers"):
            assert name(k.value) == k.arg, ast.dump(k)
    return out


def sources():
    found = {}
    for path in sorted((REPO / "envs").rglob("*_env.py")):
        if path.parent.name == "gym_srm":  # not registered
            continue
        for node in ast.parse(path.read_text()).body:
            if isinstance(node, ast.ClassDef):
                found[node.name] = parse_class(node)
                found[node.name]["place"] = (path.name, )
    return found


def frac(s):
    return Fraction(s.replace(" ", ""))


def table():
    text = LEAN.read_text()
    found = {}
    for m in re.finditer(r'\("(\w+Env)",\s*\{(.*?)\}\)', text, re.S):
        body = " ".join(m.group(2).split())
        get = lambda pat: re.search(pat, body).group(1)
        strings = lambda s: re.findall(r'"(\w+)"', s)
        d = {}
        d["motor"] = get(r"motor := \.(\w+)")
        d["action"] = get(r"action := \.(\w+)")
        kind, ks = re.search(r"converter := \.(single|multi) (\.\w+|\[.*?\])", body).groups()
        d["converter"] = (kind, re.findall(r"\.(\w+)", ks))
        kind, arg = re.search(r"load := \.(constantSpeed|polynomial) (.*?), supply", body).groups()
        pairs = lambda s: [(a, frac(b)) for a, b in re.findall(r'\("(\w+)", ([\d/ ]+)\)', s)]
        d["load"] = (kind, frac(arg) if kind == "constantSpeed" else pairs(arg))
        d["supply"] = frac(get(r"supply := ([\d/ ]+)"))
        d["tau"] = frac(get(r"tau := ([\d/ ]+)"))
        d["limited"] = strings(get(r"limited := (\[.*?\]), squares"))
        d["squares"] = [strings(s) for s in re.findall(r"\[([^\[\]]+)\]", get(r"squares := (\[.*?\]), references"))]
        kind, gens = re.search(r"references := \.(one|multiple) (.*?), weights", body).groups()
        d["references"] = (kind, [
            (n, (frac(a), frac(b)), None if mg == "none" else tuple(map(frac, re.search(r"\((.*?), (.*?)\)", mg).groups())))
            for n, a, b, mg in re.findall(r'⟨"(\w+)", \((.*?), (.*?)\), (none|some \(.*?\))⟩', gens)])
        w = get(r"weights := (\[.*?\])")
        d["weights"] = pairs(w)
        d["wrappers"] = re.findall(r"currentSums := \[(\[.*?\])\]", body)
        found[m.group(1)] = d
    return text, found


def main():
    text, lean = table()
    python = sources()
    bad = 0
    for cls in sorted(set(lean) | set(python)):
        if cls not in lean or cls not in python:
            print(cls, "only in", "the table" if cls in lean else "the source")
            bad += 1
            continue
        p, l = python[cls], lean[cls]
        for key in l:
            a, b = p[key], l[key]
            if key == "wrappers":
                a = [re.sub(r"CurrentSumProcessor\(\((.*)\)\)", lambda m: "[" + m.group(1).replace("'", '"') + "]", x) for x in a]
            if a != b:
                print(cls, key, "source:", a, "table:", b)
                bad += 1
        if p["system"] != SYSTEMS[p["motor"]]:
            print(cls, "system", p["system"])
            bad += 1
    init = (REPO / "__init__.py").read_text()
    register = []
    for node in ast.parse(init).body:
        if isinstance(node, ast.Expr) and isinstance(node.value, ast.Call) and name(node.value.func) == "register":
            k = {x.arg: x.value for x in node.value.keywords}
            entry = ast.unparse(k["entry_point"]).strip("'")
            m = re.search(r"(\w+)$", entry)
            register.append((k["id"].value, m.group(1)))
    listed = re.findall(r'\("([\w-]+-v0)", "(\w+)"\)', text)
    if register != listed:
        print("registration differs", set(register) ^ set(listed))
        bad += 1
    print(len(lean), "classes,", len(listed), "registrations compared,", bad, "differences")
    sys.exit(1 if bad else 0)


main()
