"""Lines of /repo/lex.c that write to the word buffer and are cited by no path of Verif/Lexbuf/Model.lean."""
import re
src = open('/repo/lex.c').read().split('\n')
w = {i for i in range(155, 813) if re.search(r'\bwp\+\+|\*wp =|memmove\(s|\*s\+\+ = COMSUB|\t\*s = ', src[i-1])}
w |= {i for i in range(1519, 1618) if re.search(r'\*wp\+\+', src[i-1])}
m = open('lean/Verif/Lexbuf/Model.lean').read()
m = m[m.index('structure Buf'):]
cited = set()
for blk in re.findall(r'lex\.c:([\d,\s-]+)', m):
    for a, b in re.findall(r'(\d+)(?:-(\d+))?', blk):
        cited |= set(range(int(a), int(b or a) + 1))
print(len(w), 'lines write;', 'not cited:', sorted(w - cited))
