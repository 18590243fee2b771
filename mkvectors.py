#!/usr/bin/env python3
"""Generates lean/Verif/Vectors/{Tokens,Paserk,Slow}.lean from /repo/tests/test-vectors."""
import json, os
V = "/repo/tests/test-vectors/"
OUT = os.path.join(os.path.dirname(os.path.abspath(__file__)), "lean/Verif/Vectors/")

def q(s): return json.dumps(s, ensure_ascii=False)
def load(n): return json.load(open(V + n))["tests"]

def write(name, title, imports, items):
    with open(OUT + name + ".lean", "w") as f:
        f.write("%s\n\n/-! # %s\n\nGenerated by mkvectors.py from /repo/tests/test-vectors. Tests, not proofs. -/\n\n"
                "namespace Pasta.Vectors\n\n" % ("\n".join("import " + i for i in imports), title))
        for x in items: f.write(x + "\n")
        f.write("\nend Pasta.Vectors\n")

tok, ser, slow = [], [], []
for v in ("3", "4"):
    V_ = ".V" + v
    for t in load("v%s.json" % v):
        n = "-- " + t["name"]
        f, a = t["footer"], t["implicit-assertion"]
        if "key" in t:
            tok.append(n + "\n" + ("#guard localFails %s %s\n  %s\n  %s %s" % (V_, q(t["key"]), q(t["token"]), q(f), q(a))
                if t["expect-fail"] else "#guard localOk %s %s\n  %s\n  %s\n  %s\n  %s %s" % (
                    V_, q(t["key"]), q(t["nonce"]), q(t["token"]), q(t["payload"]), q(f), q(a))))
        else:
            tok.append(n + "\n" + ("#guard publicFails %s %s\n  %s\n  %s %s" % (V_, q(t["public-key"]), q(t["token"]), q(f), q(a))
                if t["expect-fail"] else "#guard publicOk %s %s\n  %s\n  %s\n  %s\n  %s %s" % (
                    V_, q(t["public-key"]), q(t["secret-key"]), q(t["token"]), q(t["payload"]), q(f), q(a))))
    for k, idh, kh in ((".Local", "lid", "local"), (".Public", "pid", "public"), (".Secret", "sid", "secret")):
        for t in load("k%s.%s.json" % (v, idh)):
            if t.get("paserk") is not None:
                ser.append("-- %s\n#guard idOk %s %s %s\n  %s" % (t["name"], V_, k, q(t["key"]), q(t["paserk"])))
        for t in load("k%s.%s.json" % (v, kh)):
            if t.get("paserk") is None: continue
            if t.get("key") is not None:
                ser.append("-- %s\n#guard keyOk %s %s %s\n  %s" % (t["name"], V_, k, q(t["key"]), q(t["paserk"])))
            else:
                ser.append("-- %s\n#guard keyFails %s %s\n  %s" % (t["name"], V_, k, q(t["paserk"])))
    for k, h in ((".Local", "local"), (".Secret", "secret")):
        for t in load("k%s.%s-wrap.pie.json" % (v, h)):
            w = t["wrapping-key"]
            ser.append("-- %s\n" % t["name"] + ("#guard pieFails %s %s %s\n  %s" % (V_, k, q(w), q(t["paserk"]))
                if t["expect-fail"] else "#guard pieOk %s %s %s\n  %s\n  %s" % (V_, k, q(w), q(t["paserk"]), q(t["unwrapped"]))))
        for t in load("k%s.%s-pw.json" % (v, h)):
            wrong = not t["paserk"].startswith("k%s.%s-pw." % (v, h))
            fast = wrong or t["options"].get("iterations") == 1000
            c = ("pwFails %s %s %s\n  %s" % (V_, k, q(t["password"]), q(t["paserk"])) if t["expect-fail"]
                 else "pwOk %s %s %s\n  %s\n  %s" % (V_, k, q(t["password"]), q(t["paserk"]), q(t["unwrapped"])))
            if fast: ser.append("-- %s\n#guard %s" % (t["name"], c))
            else: slow.append((t["name"], c))
    for t in load("k%s.seal.json" % v):
        w = t["sealing-secret-key"]
        ser.append("-- %s\n" % t["name"] + ("#guard sealFails %s %s\n  %s" % (V_, q(w), q(t["paserk"]))
            if t["expect-fail"] else "#guard sealOk %s %s\n  %s\n  %s" % (V_, q(w), q(t["paserk"]), q(t["unsealed"]))))
write("Tokens", "PASETO test vectors", ["Verif.Vectors.Run"], tok)
write("Paserk", "PASERK test vectors", ["Verif.Vectors.Run"], ser)
body = ["/-- Vectors with expensive password hashing; not evaluated in the build. -/\n"
        "def slow : List (String × (Unit → Bool)) := ["]
body.append(",\n".join("  (%s, fun _ => %s)" % (q(n), c.replace("\n", "\n    ")) for n, c in slow) + "]")
write("Slow", "PASERK test vectors with expensive password hashing", ["Verif.Vectors.Run"], body)
print(len(tok), len(ser), len(slow))
